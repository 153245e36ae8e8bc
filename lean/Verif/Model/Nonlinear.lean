import Verif.Model.Residual
import Verif.Model.NullSpace

/-!
# The nonlinear solver  (`/repo/include/mini_opt/nonlinear.hpp`, `/repo/source/nonlinear.cc`)

`D` is `Problem::dimension`, `n` the size of the variables vector given to `Solve` (the code does not check
that they agree).  The object state is explicit, including leftovers in its buffers.

Simplifications, besides those of `Verif/Model/Residual.lean`:
* the `Problem` is not modified after the solver object has been constructed (`Verif/Model/Sizes.lean` describes what
  happens otherwise), and one object is always used with start vectors of one size `n`;
* a custom retraction is a pure function that does not change the size of the vector (it may throw: `retractionThrows`);
* the user callback may throw (`callbackThrows`) and may keep state, i.e. its verdict may depend on everything it has been
  called with so far;
* tracing (`MINI_OPT_FUNCTION_TRACE`) is modelled separately (`Verif/Model/Tracing.lean`);
* `error_buffer_` is not part of the state: it is sized for the largest residual (`nonlinear.cc:25-46`) and
  completely overwritten before it is read (`nonlinear.cc:283-290`); C85 proves that the size suffices.
-/

set_option autoImplicit false

namespace MiniOpt

variable {α : Type} [Scalar α]

/-- `struct Problem` (`nonlinear.hpp:33-52`); `D` is `dimension`. -/
structure Problem (D : Nat) (α : Type) where
  costs : List (Residual α)
  ineq : List (Ineq α)
  eqs : List (Residual α)

/-- Number of inequality constraints. -/
abbrev Problem.M {D : Nat} (p : Problem D α) : Nat := p.ineq.length

/-- `total_eq_size` of the constructor (`nonlinear.cc:24-30`): rows of `A_eq`. -/
abbrev Problem.K {D : Nat} (p : Problem D α) : Nat := (p.eqs.map (·.dim)).sum

/-- `ConstrainedNonlinearLeastSquares::Params` (`nonlinear.hpp:64-124`). -/
structure NLSParams (α : Type) where
  maxIterations : Int
  maxQPIterations : Int
  terminationKktTol : α
  absoluteExitTol : α
  relativeExitTol : α
  absoluteFirstDerivativeTol : α
  maxLineSearchIterations : Int
  lineSearchStrategy : LineSearchStrategy
  armijoSearchTau : α
  equalityPenaltyInitial : α
  equalityPenaltyScaleFactor : α
  equalityPenaltyRho : α
  lambdaInitial : α
  lambdaFailureInit : α
  lambdaDecreaseOnSuccess : α
  lambdaDecreaseOnRestore : α
  maxLambda : α
  minLambda : α
  logQPEigenvalues : Bool

/-- Default member initialisers of `Params` (`nonlinear.hpp:66-123`). -/
def NLSParams.default : NLSParams α where
  maxIterations := 10
  maxQPIterations := 10
  terminationKktTol := Scalar.lit (1 / 10 ^ 6)
  absoluteExitTol := Scalar.lit (1 / 10 ^ 12)
  relativeExitTol := Scalar.lit (1 / 10 ^ 5)
  absoluteFirstDerivativeTol := Scalar.lit (1 / 10 ^ 6)
  maxLineSearchIterations := 2
  lineSearchStrategy := .polynomialApproximation
  armijoSearchTau := Scalar.lit (8 / 10)
  equalityPenaltyInitial := 1
  equalityPenaltyScaleFactor := Scalar.lit (101 / 100)
  equalityPenaltyRho := Scalar.lit (1 / 10)
  lambdaInitial := 0
  lambdaFailureInit := Scalar.lit (1 / 100)
  lambdaDecreaseOnSuccess := Scalar.lit (1 / 10)
  lambdaDecreaseOnRestore := Scalar.lit (8 / 10)
  maxLambda := 1
  minLambda := 0
  logQPEigenvalues := false

namespace NLS


/-- `CheckParams` (`nonlinear.cc:49-73`). Every test has the form "throw unless the comparison is true", so a
NaN fails it. -/
def checkParams (prm : NLSParams α) : Res Unit :=
  if ¬ 0 ≤ prm.maxIterations then .error (.assertion "max_iterations >= 0")
  else if ¬ 1 ≤ prm.maxQPIterations then .error (.assertion "max_qp_iterations >= 1")
  else if ¬ (0 : α) < prm.terminationKktTol then .error (.assertion "termination_kkt_tolerance > 0")
  else if ¬ (0 : α) < prm.absoluteExitTol then .error (.assertion "absolute_exit_tol > 0")
  else if ¬ 0 ≤ prm.maxLineSearchIterations then .error (.assertion "max_line_search_iterations >= 0")
  else if ¬ (0 : α) ≤ prm.relativeExitTol then .error (.assertion "relative_exit_tol >= 0")
  else if ¬ prm.relativeExitTol ≤ (1 : α) then .error (.assertion "relative_exit_tol <= 1")
  else if ¬ (0 : α) ≤ prm.absoluteFirstDerivativeTol then .error (.assertion "absolute_first_derivative_tol >= 0")
  else if ¬ (0 : α) < prm.armijoSearchTau then .error (.assertion "armijo_search_tau > 0")
  else if ¬ prm.armijoSearchTau < (1 : α) then .error (.assertion "armijo_search_tau < 1")
  else if ¬ (0 : α) ≤ prm.equalityPenaltyInitial then .error (.assertion "equality_penalty_initial >= 0")
  else if ¬ (1 : α) ≤ prm.equalityPenaltyScaleFactor then .error (.assertion "equality_penalty_scale_factor >= 1.0")
  else if ¬ (0 : α) ≤ prm.equalityPenaltyRho then .error (.assertion "equality_penalty_rho >= 0")
  else if ¬ prm.equalityPenaltyRho < (1 : α) then .error (.assertion "equality_penalty_rho < 1")
  else if ¬ (0 : α) ≤ prm.maxLambda then .error (.assertion "max_lambda >= 0")
  else if ¬ prm.minLambda ≤ prm.maxLambda then .error (.assertion "min_lambda <= max_lambda")
  else if ¬ prm.minLambda ≤ prm.lambdaInitial then .error (.assertion "lambda_initial >= min_lambda")
  else if ¬ prm.lambdaInitial ≤ prm.maxLambda then .error (.assertion "lambda_initial <= max_lambda")
  else if ¬ (0 : α) ≤ prm.lambdaFailureInit then .error (.assertion "lambda_failure_init >= 0")
  else if ¬ (0 : α) ≤ prm.lambdaDecreaseOnSuccess then .error (.assertion "lambda_decrease_on_success >= 0")
  else if ¬ prm.lambdaDecreaseOnSuccess < (1 : α) then .error (.assertion "lambda_decrease_on_success < 1.0")
  else if ¬ (0 : α) ≤ prm.lambdaDecreaseOnRestore then .error (.assertion "lambda_decrease_on_restore >= 0")
  else if ¬ prm.lambdaDecreaseOnRestore < (1 : α) then .error (.assertion "lambda_decrease_on_restore < 1.0")
  else .ok ()

/-- The member `qp_` (`nonlinear.hpp:225`), with the sizes fixed by the constructor (`nonlinear.cc:19-34`).
The constraint indices are still C++ `int`s. -/
structure QPData (D M K : Nat) (α : Type) where
  G : Fin D → Fin D → α
  c : Fin D → α
  A : Fin K → Fin D → α
  b : Fin K → α
  con : Fin M → Ineq α

/-! ## Linearisation -/

/-- The cost loop of `LinearizeAndFillQP` (`nonlinear.cc:184-186`), starting from given `G`, `c` and error. -/
def linCosts {n D : Nat} (x : Fin n → α) : List (Residual α) → (Fin D → Fin D → α) → (Fin D → α) → α →
    Except (Fault × (Fin D → Fin D → α) × (Fin D → α)) ((Fin D → Fin D → α) × (Fin D → α) × α)
  | [], G, c, f => .ok (G, c, f)
  | r :: rs, G, c, f =>
    match r.updateHessian x G c with
    | .error e => .error e
    | .ok (G', c', e) => linCosts x rs G' c' (f + e)

/-- `A.middleRows(row, dim)` replaced by a block (`nonlinear.cc:200-201`). -/
def setRows {K d : Nat} {β : Type} (A : Fin K → β) (row : Nat) (B : Fin d → β) : Fin K → β :=
  fun k => if h : row ≤ k.val ∧ k.val < row + d then B ⟨k.val - row, by omega⟩ else A k

/-- `A.middleRows(row, dim)` (`nonlinear.cc:200-201`); `row + d ≤ K` is asserted before. -/
def getRows {K d : Nat} {β : Type} (A : Fin K → β) (row : Nat) (h : row + d ≤ K) : Fin d → β :=
  fun k => A ⟨row + k.val, by omega⟩

/-- The equality constraint loop of `LinearizeAndFillQP` (`nonlinear.cc:194-206`). -/
def linEqs {n D K : Nat} (x : Fin n → α) : List (Residual α) → Nat → (Fin K → Fin D → α) → (Fin K → α) → α →
    Except (Fault × (Fin K → Fin D → α) × (Fin K → α)) ((Fin K → Fin D → α) × (Fin K → α) × α)
  | [], _, A, b, err => .ok (A, b, err)
  | r :: rs, row, A, b, err =>
    if h : row + r.dim ≤ K then
      match r.updateJacobian x r.dim r.dim (getRows A row h) (getRows b row h) with
      | .error (e, A', b') => .error (e, setRows A row A', setRows b row b')
      | .ok (A', b') => linEqs x rs (row + r.dim) (setRows A row A') (setRows b row b') (err + lpNorm1 b')
    else .error (.assertion "row + dim <= qp->A_eq.rows()", A, b)

/-- `c.ShiftTo(variables)` (`qp.hpp:62-65`) for a typed vector: only the upper bound of the index is
asserted. -/
def shiftAt {n : Nat} (x : Fin n → α) (c : Ineq α) : Res (Ineq α) :=
  if ¬ c.var < (n : Int) then .error (.assertion "variable < x.rows()")
  else match toFin n c.var with
    | none => .error (.ub "x[variable] with negative variable")
    | some j => .ok (c.shiftTo (x j))

/-- The constraint loop of `LinearizeAndFillQP` (`nonlinear.cc:209-212`). -/
def shiftLoop {n : Nat} (x : Fin n → α) : (l : List (Ineq α)) → Res (Fin l.length → Ineq α)
  | [] => .ok Fin.elim0
  | c :: cs =>
    match shiftAt x c with
    | .error e => .error e
    | .ok c' =>
      match shiftLoop x cs with
      | .error e => .error e
      | .ok cs' => .ok (Fin.cons c' cs')

/-- `LinearizeAndFillQP` (`nonlinear.cc:170-214`). The size assertions of lines 174-178 hold by typing.
Simplification: when a constraint's `ShiftTo` throws, `qp_.constraints` is left as it was (the code leaves the
constraints shifted so far; they are cleared before the next use). -/
def linearize {n D : Nat} (p : Problem D α) (x : Fin n → α) (lambda : α) (qp : QPData D p.M p.K α) :
    Except (Fault × QPData D p.M p.K α) (QPData D p.M p.K α × Errors α) :=
  match linCosts x p.costs (fun _ _ => 0) (fun _ => 0) 0 with
  | .error (e, G, c) => .error (e, { qp with G := G, c := c })
  | .ok (G, c, f) =>
    let G' : Fin D → Fin D → α :=
      if 0 < lambda then fun i j => if i = j then G i j + lambda else G i j else G
    match linEqs x p.eqs 0 (fun _ _ => 0) (fun _ => 0) 0 with
    | .error (e, A, b) => .error (e, { qp with G := G', c := c, A := A, b := b })
    | .ok (A, b, err) =>
      match shiftLoop x p.ineq with
      | .error e => .error (e, { qp with G := G', c := c, A := A, b := b })
      | .ok con => .ok (⟨G', c, A, b, con⟩, ⟨f, err⟩)

/-! ## Object and environment -/

/-- The member `solver_` (`nonlinear.hpp:228`). -/
inductive Solver (D M K : Nat) (α : Type) where
  | ip (st : IPState D M K α)
  | ns (st : NSState D α)

/-- Member variables of `ConstrainedNonlinearLeastSquares` (`nonlinear.hpp:219-245`) that change. -/
structure Obj (n D M K : Nat) (α : Type) where
  qp : QPData D M K α
  solver : Solver D M K α
  vars : Fin n → α
  cand : Fin n → α
  dx : Fin D → α
  steps : List (LineSearchStep α)
  state : OptimizerState

/-- What stays fixed during a solve: the problem, the custom retraction and callback
(`nonlinear.hpp:127`, `nonlinear.hpp:245`; `none` is an empty `std::function`), and the Eigen functions used.
`fresh` is the content of a newly created QP solver's buffers. The callback receives the list of everything it
has been called with, the current iteration last. `retractionThrows` and `callbackThrows` say when they throw an
exception instead of returning. -/
structure Env (n D : Nat) (α : Type) where
  p : Problem D α
  retraction : Option ((Fin n → α) → (Fin D → α) → α → (Fin n → α))
  callback : Option (List (NLSIteration α) → Bool)
  E : Eigen D p.K α
  NE : NSEigen α
  eigenvalues : (Fin D → Fin D → α) → Fin D → α
  freshIP : IPState D p.M p.K α
  freshNS : NSState D α
  retractionThrows : (Fin n → α) → (Fin D → α) → α → Bool := fun _ _ _ => false
  callbackThrows : List (NLSIteration α) → Bool := fun _ => false

variable {n D : Nat}

/-- The object belonging to an environment. -/
abbrev Env.Obj (env : Env n D α) : Type := NLS.Obj n D env.p.M env.p.K α

/-- The assertions of the constructor (`nonlinear.cc:16-17`); `none` is a null pointer. -/
def ctorCheck (dimension : Option Int) : Res Unit :=
  match dimension with
  | none => .error (.assertion "p_ != nullptr")
  | some d => if 0 < d then .ok () else .error (.assertion "Need at least one variable")

/-- `RetractCandidateVars` (`nonlinear.cc:160-168`): the new candidate. Without a custom retraction two vectors
of different size would be added when `n ≠ D`. (What a throwing retraction leaves in the candidate is not modelled; the
candidate is overwritten before it is next read.) -/
def retract (env : Env n D α) (x : Fin n → α) (dx : Fin D → α) (alpha : α) : Res (Fin n → α) :=
  match env.retraction with
  | some R => if env.retractionThrows x dx alpha then .error .user else .ok (R x dx alpha)
  | none =>
    if h : n = D then .ok fun i => x i + dx (i.cast h) * alpha
    else .error (.ub "candidate_vars_ += dx_ * alpha with different sizes")

/-- The cost loop of `EvaluateNonlinearErrors` (`nonlinear.cc:282-286`). -/
def evalCosts (x : Fin n → α) : List (Residual α) → α → Res α
  | [], f => .ok f
  | r :: rs, f =>
    match r.errorVector x r.dim with
    | .error e => .error e
    | .ok v => evalCosts x rs (f + Residual.half * squaredNorm v)

/-- The equality loop of `EvaluateNonlinearErrors` (`nonlinear.cc:287-291`). -/
def evalEqs (x : Fin n → α) : List (Residual α) → α → Res α
  | [], f => .ok f
  | r :: rs, f =>
    match r.errorVector x r.dim with
    | .error e => .error e
    | .ok v => evalEqs x rs (f + lpNorm1 v)

/-- `EvaluateNonlinearErrors` (`nonlinear.cc:279-293`). -/
def evalErrors (p : Problem D α) (x : Fin n → α) : Res (Errors α) :=
  match evalCosts x p.costs 0 with
  | .error e => .error e
  | .ok f =>
    match evalEqs x p.eqs 0 with
    | .error e => .error e
    | .ok q => .ok ⟨f, q⟩

/-! ## Step direction -/

/-- The QP parameters set by `ComputeStepDirection` (`nonlinear.cc:226-239`). -/
def qpParams (p : Problem D α) (prm : NLSParams α) : QPParams α :=
  { (QPParams.default : QPParams α) with
    maxIterations := prm.maxQPIterations
    terminationKktTol := prm.terminationKktTol
    initialMu := 1
    sigma := Scalar.lit (1 / 10)
    initializeMuWithComplementarity := false
    initialGuessMethod := if p.eqs ≠ [] then .solveEqualityConstrained else .naive }

/-- `qp_` as the QP solver sees it once all constraint indices are known to be valid. -/
def QPData.typed {M K : Nat} (q : QPData D M K α) (h : ∀ i, 0 ≤ (q.con i).var ∧ (q.con i).var < (D : Int)) :
    QP D M K α where
  G := q.G
  c := q.c
  A := q.A
  b := q.b
  con i := ⟨⟨(q.con i).var.toNat, by have := h i; omega⟩, (q.con i).a, (q.con i).b⟩

/-- `ComputeStepDirection` (`nonlinear.cc:216-259`). `Setup` (`qp.cc:20-73`) checks dimensions, which hold by
typing, and the constraint indices. -/
def stepDirection (env : Env n D α) (prm : NLSParams α) (o : env.Obj) :
    Except (Fault × env.Obj) (env.Obj × QPResult α) :=
  let o0 : env.Obj := { o with dx := fun _ => 0 }
  match o.solver with
  | .ip st =>
    match checkIndices D (List.ofFn o.qp.con) with
    | .error e => .error (e, { o0 with solver := .ip (IP.setupState st) })
    | .ok _ =>
      if h : ∀ i, 0 ≤ (o.qp.con i).var ∧ (o.qp.con i).var < (D : Int) then
        match IP.solve env.E (o.qp.typed h) (qpParams env.p prm) (IP.setupState st) with
        | .error (e, st') => .error (e, { o0 with solver := .ip st' })
        | .ok (st', out) => .ok ({ o0 with solver := .ip st', dx := st'.v.x }, .interiorPoint out)
      else .error (.ub "negative constraint index", o0)
  | .ns st =>
    match NS.solve env.NE (⟨o.qp.G, o.qp.c, o.qp.A, o.qp.b, Fin.elim0⟩ : QP D 0 env.p.K α) st with
    | .error (e, st') => .error (e, { o0 with solver := .ns st' })
    | .ok (st', .success) => .ok ({ o0 with solver := .ns st', dx := st'.x }, .nullSpace .success)
    | .ok (st', .notPositiveDefinite) => .ok ({ o0 with solver := .ns st' }, .nullSpace .notPositiveDefinite)

/-- `MaybeGetLagrangeMultipliers` (`nonlinear.cc:261-268`). -/
def multipliers : QPResult α → Option (QPLagrangeMultipliers α)
  | .interiorPoint o => o.lagrange
  | .nullSpace _ => none

/-- `QPWasIndefinite` (`nonlinear.cc:270-277`). -/
def wasIndefinite : QPResult α → Bool
  | .nullSpace .notPositiveDefinite => true
  | _ => false

/-- `Sign` (`nonlinear.cc:445-455`). -/
def sign (x : α) : α := if 0 < x then 1 else if x < 0 then -1 else 0

/-- `ComputeQPCostDerivative` (`nonlinear.cc:457-482`). -/
def costDerivative {M K : Nat} (q : QPData D M K α) (dx : Fin D → α) : DirectionalDerivatives α where
  dF := dot q.c dx
  dEquality := (List.finRange K).foldl (fun acc i => acc + sign (q.b i) * dot (q.A i) dx) 0

/-- `std::numeric_limits<double>::epsilon()` (`nonlinear.cc:495`). -/
def epsilon : α := Scalar.lit (1 / 2 ^ 52)

/-- `SelectPenalty` (`nonlinear.cc:484-502`). -/
def selectPenalty {M K : Nat} (q : QPData D M K α) (dx : Fin D → α) (lm : Option (QPLagrangeMultipliers α))
    (rho : α) : α :=
  match lm with
  | some l => l.lInfinity
  | none =>
    let l1 := cmax (lpNorm1 q.b) epsilon
    let approx := dot q.c dx + Residual.half * cmax 0 (dot dx (matVec (symLower q.G) dx))
    approx / ((1 - rho) * l1)

/-! ## Line search -/

/-- `QuadraticApproxMinimum` (`nonlinear.cc:531-538`). -/
def quadraticApproxMinimum (phi0 dphi0 alpha0 phiAlpha0 : α) : Option α :=
  let numerator := phiAlpha0 - dphi0 * alpha0 - phi0
  if 0 < dphi0 ∨ numerator ≤ 0 then none
  else some (-dphi0 * alpha0 * alpha0 / (Scalar.lit 2 * numerator))

/-- `CubicApproxCoeffs` (`nonlinear.cc:563-578`). `Matrix2d::inverse()` is Eigen's closed form: reciprocal of
the determinant times the adjugate. -/
def cubicApproxCoeffs (phi0 dphi0 alpha0 phiAlpha0 alpha1 phiAlpha1 : α) : Res (α × α) :=
  if ¬ 0 < alpha1 then .error (.assertion "alpha_1 > 0")
  else if ¬ alpha1 < alpha0 then .error (.assertion "This must be satisfied for the system to be solvable")
  else
    let a00 := alpha0 * alpha0 * alpha0
    let a01 := alpha0 * alpha0
    let a10 := alpha1 * alpha1 * alpha1
    let a11 := alpha1 * alpha1
    let r0 := phiAlpha0 - phi0 - dphi0 * alpha0
    let r1 := phiAlpha1 - phi0 - dphi0 * alpha1
    let invdet := 1 / (a00 * a11 - a10 * a01)
    .ok ((a11 * invdet) * r0 + (-a01 * invdet) * r1, (-a10 * invdet) * r0 + (a00 * invdet) * r1)

/-- The literal `-1.0e-12` (`nonlinear.cc:599`). -/
def negativeTol : α := Scalar.lit (-1 / 10 ^ 12)

/-- `CubicApproxMinimum` (`nonlinear.cc:594-605`). -/
def cubicApproxMinimum (dphi0 : α) (ab : α × α) : Option α :=
  let arg := ab.2 * ab.2 - Scalar.lit 3 * ab.1 * dphi0
  if Scalar.feq ab.1 0 ∨ arg < negativeTol then none
  else some ((-ab.2 + Scalar.sqrt (cmax arg 0)) / (Scalar.lit 3 * ab.1))

/-- `ComputeAlphaPolynomialApproximation` (`nonlinear.cc:418-443`). -/
def polyAlpha (iter : Nat) (pre : Errors α) (d : DirectionalDerivatives α) (penalty : α)
    (steps : List (LineSearchStep α)) : Res (Option α) :=
  if ¬ 1 ≤ iter then .error (.assertion "iteration >= 1")
  else if iter = 1 then
    match steps with
    | [s] => .ok (quadraticApproxMinimum (pre.total penalty) (d.total penalty) s.alpha (s.errors.total penalty))
    | _ => .error (.assertion "steps_.size() == 1")
  else
    match steps.reverse with
    | last :: second :: _ =>
      match cubicApproxCoeffs (pre.total penalty) (d.total penalty) second.alpha (second.errors.total penalty)
          last.alpha (last.errors.total penalty) with
      | .error e => .error e
      | .ok ab => .ok (cubicApproxMinimum (d.total penalty) ab)
    | _ => .error (.assertion "steps_.size() >= 2")

/-- The choice of `alpha` at the head of the loop of `SelectStepSize` (`nonlinear.cc:367-386`). `none` is
`FAILURE_INVALID_ALPHA`. -/
def nextAlpha (strategy : LineSearchStrategy) (tau : α) (iter : Nat) (pre : Errors α)
    (d : DirectionalDerivatives α) (penalty : α) (alpha : α) (steps : List (LineSearchStep α)) : Res (Option α) :=
  match strategy with
  | .polynomialApproximation =>
    if 0 < iter then
      match polyAlpha iter pre d penalty steps with
      | .error e => .error e
      | .ok none => .ok none
      | .ok (some a) => if ¬ Scalar.isFinite a ∨ a ≤ 0 ∨ alpha ≤ a then .ok none else .ok (some a)
    else .ok (some alpha)
  | .armijoBacktrack => if 0 < iter then .ok (some (alpha * tau)) else .ok (some alpha)

/-- The literal `armijo_c1 = 1.0e-4` (`nonlinear.cc:121`). -/
def armijoC1 : α := Scalar.lit (1 / 10 ^ 4)

/-- The loop of `SelectStepSize` (`nonlinear.cc:365-415`); the first argument is the number of iterations left.
`x` is `variables_`. Faults come with the steps and the candidate as they are left. -/
def lsLoop (env : Env n D α) (prm : NLSParams α) (x : Fin n → α) (dx : Fin D → α) (pre : Errors α)
    (d : DirectionalDerivatives α) (penalty : α) :
    Nat → Nat → α → List (LineSearchStep α) → (Fin n → α) →
      Except (Fault × List (LineSearchStep α) × (Fin n → α)) (StepResult × List (LineSearchStep α) × (Fin n → α))
  | 0, _, _, steps, cand => .ok (.maxIterations, steps, cand)
  | fuel + 1, iter, alpha, steps, cand =>
    match nextAlpha prm.lineSearchStrategy prm.armijoSearchTau iter pre d penalty alpha steps with
    | .error e => .error (e, steps, cand)
    | .ok none => .ok (.failureInvalidAlpha, steps, cand)
    | .ok (some a) =>
      match retract env x dx a with
      | .error e => .error (e, steps, x)
      | .ok cand' =>
        match evalErrors env.p cand' with
        | .error e => .error (e, steps, cand')
        | .ok es =>
          let steps' := steps ++ [⟨a, es⟩]
          if es.containsInvalid then .ok (.failureNonFiniteCost, steps', cand')
          else if d.lInfinity < prm.absoluteFirstDerivativeTol then .ok (.firstOrderSatisfied, steps', cand')
          else if 0 < d.total penalty then .ok (.positiveDerivative, steps', cand')
          else if es.total penalty ≤ pre.total penalty + d.total penalty * a * armijoC1 then
            .ok (.success, steps', cand')
          else lsLoop env prm x dx pre d penalty fuel (iter + 1) a steps' cand'

/-- `SelectStepSize` (`nonlinear.cc:351-416`). -/
def selectStepSize (env : Env n D α) (prm : NLSParams α) (pre : Errors α) (d : DirectionalDerivatives α)
    (penalty : α) (o : env.Obj) : Except (Fault × env.Obj) (env.Obj × StepResult) :=
  if ¬ 0 < penalty then .error (.assertion "penalty > 0.0", o)
  else if pre.containsInvalid then .error (.assertion "!errors_pre.ContainsInvalidValues()", o)
  else
    match lsLoop env prm o.vars o.dx pre d penalty (prm.maxLineSearchIterations + 1).toNat 0 1 [] o.cand with
    | .error (e, steps, cand) => .error (e, { o with steps := steps, cand := cand })
    | .ok (res, steps, cand) => .ok ({ o with steps := steps, cand := cand }, res)

/-! ## The outer loop -/

/-- `UpdateLambdaAndCheckExitConditions` (`nonlinear.cc:296-343`): the object, the new `lambda` and the exit
state, if any. -/
def updateLambda (env : Env n D α) (prm : NLSParams α) (res : StepResult) (pre : Errors α) (penalty lambda : α)
    (o : env.Obj) : Except (Fault × env.Obj) (env.Obj × α × Option NLSTermination) :=
  match res with
  | .success =>
    match o.steps.getLast? with
    | none => .error (.assertion "Must have logged a step", o)
    | some final =>
      let dec := match o.state with
        | .attemptingRestoreLM => prm.lambdaDecreaseOnRestore
        | .nominal => prm.lambdaDecreaseOnSuccess
      let o' : env.Obj := { o with vars := o.cand, cand := o.vars, state := .nominal }
      let exit :=
        if final.errors.lInfinity < prm.absoluteExitTol then some .satisfiedAbsoluteTol
        else if pre.total penalty * (1 - prm.relativeExitTol) < final.errors.total penalty then
          some .satisfiedRelativeTol
        else none
      .ok (o', cmax (lambda * dec) prm.minLambda, exit)
  | .firstOrderSatisfied => .ok (o, lambda, some .satisfiedFirstOrderTol)
  | .maxIterations | .positiveDerivative =>
    let lambda' := match o.state with
      | .nominal => cmax prm.lambdaFailureInit (lambda * Scalar.lit 10)
      | .attemptingRestoreLM => lambda * Scalar.lit 10
    .ok ({ o with state := .attemptingRestoreLM }, lambda',
      if prm.maxLambda < lambda' then some .maxLambda else none)
  | .failureNonFiniteCost | .failureInvalidAlpha => .ok (o, lambda, none)

/-- `QP::ComputeEigenvalueStats` (`qp.cc:12-16`) from the eigenvalues. `D = 0` is excluded by the
constructor. -/
def eigenStats : {D : Nat} → (Fin D → α) → QPEigenvalues α
  | 0, _ => ⟨0, 0, 0⟩
  | _ + 1, ev => ⟨IP.minCoeff ev, IP.maxCoeff ev, IP.minCoeff fun i => Scalar.abs (ev i)⟩

/-- Local variables of `Solve` (`nonlinear.cc:92-95`), the object, and the calls made to the user callback. -/
structure Loop (env : Env n D α) where
  obj : env.Obj
  lambda : α
  penalty : α
  log : List (NLSIteration α)
  calls : List (NLSIteration α)

/-- The penalty update (`nonlinear.cc:111-118`). -/
def raisePenalty (p : Problem D α) (prm : NLSParams α) (q : QPData D p.M p.K α) (dx : Fin D → α)
    (out : QPResult α) (penalty : α) : α :=
  if p.eqs ≠ [] then
    let np := selectPenalty q dx (multipliers out) prm.equalityPenaltyRho
    if penalty < np then np * prm.equalityPenaltyScaleFactor else penalty
  else penalty

/-- The callback call and the exit decision at the end of the loop body (`nonlinear.cc:145-155`): the calls so
far and the termination state, if any. -/
def finish (callback : Option (List (NLSIteration α) → Bool)) (info : NLSIteration α) (exit : Option NLSTermination)
    (calls : List (NLSIteration α)) : List (NLSIteration α) × Option NLSTermination :=
  match callback with
  | none => (calls, exit)
  | some cb =>
    let calls' := calls ++ [info]
    match exit with
    | some t => (calls', some t)
    | none => (calls', if cb calls' then none else some .userCallback)

/-- Whether the call of the callback throws. -/
def callbackFails (env : Env n D α) (info : NLSIteration α) (calls : List (NLSIteration α)) : Bool :=
  match env.callback with
  | none => false
  | some _ => env.callbackThrows (calls ++ [info])

/-- One pass of the loop of `Solve` (`nonlinear.cc:97-155`). -/
def body (env : Env n D α) (prm : NLSParams α) (iter : Nat) (s : Loop env) :
    Except (Fault × env.Obj) (Loop env × Option NLSTermination) :=
  match linearize env.p s.obj.vars s.lambda s.obj.qp with
  | .error (e, qp) => .error (e, { s.obj with qp := qp })
  | .ok (qp, pre) =>
    match stepDirection env prm { s.obj with qp := qp } with
    | .error e => .error e
    | .ok (o1, out) =>
      if wasIndefinite out then .ok ({ s with obj := o1 }, some .qpIndefinite)
      else
        let d := costDerivative o1.qp o1.dx
        let penalty := raisePenalty env.p prm o1.qp o1.dx out s.penalty
        match selectStepSize env prm pre d penalty o1 with
        | .error e => .error e
        | .ok (o2, res) =>
          match updateLambda env prm res pre penalty s.lambda o2 with
          | .error e => .error e
          | .ok (o3, lambda', exit) =>
            let info : NLSIteration α := {
              iteration := iter
              optimizerState := o3.state
              lambda := s.lambda
              errorsInitial := pre
              qpOutputs := out
              qpEigenvalues := if prm.logQPEigenvalues then some (eigenStats (env.eigenvalues o3.qp.G)) else none
              directionalDerivatives := d
              penalty := penalty
              stepResult := res
              lineSearchSteps := o3.steps }
            let fin := finish env.callback info exit s.calls
            if callbackFails env info s.calls then .error (.user, { o3 with steps := [] })
            else .ok (⟨{ o3 with steps := [] }, lambda', penalty, s.log ++ [info], fin.1⟩, fin.2)

/-- The loop of `Solve` (`nonlinear.cc:96-157`); the first argument is the number of iterations left. -/
def loop (env : Env n D α) (prm : NLSParams α) : Nat → Nat → Loop env →
    Except (Fault × env.Obj) (Loop env × NLSTermination)
  | 0, _, s => .ok (s, .maxIterations)
  | fuel + 1, iter, s =>
    match body env prm iter s with
    | .error e => .error e
    | .ok (s', some t) => .ok (s', t)
    | .ok (s', none) => loop env prm fuel (iter + 1) s'

/-- The choice of QP solver (`nonlinear.cc:83-89`). -/
def chooseSolver (env : Env n D α) (s : Solver D env.p.M env.p.K α) : Solver D env.p.M env.p.K α :=
  if env.p.ineq = [] ∧ env.p.eqs ≠ [] then
    match s with
    | .ns st => .ns st
    | .ip _ => .ns env.freshNS
  else match s with
    | .ip st => .ip st
    | .ns _ => .ip env.freshIP

/-- The state with which the loop of `Solve` starts (`nonlinear.cc:80-95`). -/
def start (env : Env n D α) (prm : NLSParams α) (x0 : Fin n → α) (o : env.Obj) : Loop env :=
  ⟨{ o with vars := x0, state := .nominal, solver := chooseSolver env o.solver },
    prm.lambdaInitial, prm.equalityPenaltyInitial, [], []⟩

/-- `Solve` (`nonlinear.cc:75-158`): the object, the outputs, and the calls made to the user callback. -/
def solve (env : Env n D α) (prm : NLSParams α) (x0 : Fin n → α) (o : env.Obj) :
    Except (Fault × env.Obj) (env.Obj × NLSOutputs α × List (NLSIteration α)) :=
  match checkParams prm with
  | .error e => .error (e, o)
  | .ok _ =>
    match loop env prm prm.maxIterations.toNat 0 (start env prm x0 o) with
    | .error e => .error e
    | .ok (s, t) => .ok (s.obj, ⟨t, s.log⟩, s.calls)

end NLS
end MiniOpt
