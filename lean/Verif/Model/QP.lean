import Verif.Model.Constraint
import Verif.Model.Structs

/-!
# The interior point QP solver  (`/repo/include/mini_opt/qp.hpp:103-296`, `/repo/source/qp.cc:18-655`)

The dimensions `N`, `M`, `K` of `ProblemDims` (`qp.hpp:199-203`) are type parameters, vectors are
functions from `Fin`.  The mapping between the raw `QP` struct (whose dimensions and indices may be
inconsistent) and this typed form is `Verif/Model/RawQP.lean`; the mapping between the one flat vector
`variables_` and the four blocks `x, s, y, z` is `Verif/Model/FlatBlocks.lean`.

All scratch buffers of the C++ object (`r_`, `r_dual_aug_`, `H_`, `H_inv_`, `delta_`, `delta_affine_`)
are explicit in the state, so that stale contents are visible in the model.
-/

set_option autoImplicit false

namespace MiniOpt

variable {α : Type} [Scalar α]

/-- `LinearInequalityConstraint` whose index is known to be in range (`qp.hpp:28-34`). -/
structure Con (N : Nat) (α : Type) where
  var : Fin N
  a : α
  b : α

/-- The `Ineq` a `Con` stands for. -/
def Con.toIneq {N : Nat} (c : Con N α) : Ineq α := ⟨c.var.val, c.a, c.b⟩

/-- `struct QP` (`qp.hpp:103-123`) with consistent dimensions. `G` is stored in full; `A` is `A_eq`,
`b` is `b_eq`, `con` is `constraints`. -/
structure QP (N M K : Nat) (α : Type) where
  G : Fin N → Fin N → α
  c : Fin N → α
  A : Fin K → Fin N → α
  b : Fin K → α
  con : Fin M → Con N α

/-- A vector with the block layout `(x, s, y, z)` (`qp.hpp:208`, accessors `qp.cc:548-582`). The same
layout is used for `variables_`, `r_` (as `r_d, r_comp, r_pe, r_pi`), `delta_`, `delta_affine_`. -/
structure Blocks (N M K : Nat) (α : Type) where
  x : Fin N → α
  s : Fin M → α
  y : Fin K → α
  z : Fin M → α

/-- All blocks zero (`setZero()`). -/
def Blocks.zero {N M K : Nat} : Blocks N M K α := ⟨fun _ => 0, fun _ => 0, fun _ => 0, fun _ => 0⟩

/-- Index type of the reduced system, `N + K` rows (`qp.cc:46`). -/
abbrev Red (N K : Nat) := Fin N ⊕ Fin K

/-- Member variables of `QPInteriorPointSolver` after `Setup` (`qp.hpp:196-220`). -/
structure IPState (N M K : Nat) (α : Type) where
  v : Blocks N M K α
  r : Blocks N M K α
  rDualAug : Fin N → α
  H : Red N K → Red N K → α
  Hinv : Red N K → Red N K → α
  delta : Blocks N M K α
  deltaAff : Blocks N M K α

/-- The factorisation used from Eigen (not part of the repository): `LDLT<MatrixXd, Lower>` followed by
`solveInPlace(Identity)` (`qp.cc:302-311`). `none` is `info() != Success`. -/
structure Eigen (N K : Nat) (α : Type) where
  ldltInverse : (Red N K → Red N K → α) → Option (Red N K → Red N K → α)

/-- `QPInteriorPointSolver::Params` (`qp.hpp:133-165`). -/
structure QPParams (α : Type) where
  initialMu : α
  sigma : α
  terminationKktTol : α
  terminationComplementarityTol : α
  maxIterations : Int
  barrierStrategy : BarrierStrategy
  decreaseMuOnlyOnSmallError : Bool
  initialGuessMethod : InitialGuessMethod
  initializeMuWithComplementarity : Bool

/-- Default member initialisers of `Params` (`qp.hpp:135-164`). -/
def QPParams.default : QPParams α where
  initialMu := 1
  sigma := Scalar.lit (1 / 2)
  terminationKktTol := Scalar.lit (1 / 10 ^ 9)
  terminationComplementarityTol := Scalar.lit (1 / 10 ^ 6)
  maxIterations := 10
  barrierStrategy := .complementarity
  decreaseMuOnlyOnSmallError := false
  initialGuessMethod := .naive
  initializeMuWithComplementarity := false

/-- Outcome of a member function: the value, or a fault together with the object state left behind. -/
abbrev SRes (S β : Type) := Except (Fault × S) β

/-- `CheckParams` (`qp.cc:76-82`). All tests are of the form "throw unless the comparison is true", so
NaN fails them. -/
def checkParams (prm : QPParams α) : Res Unit :=
  if ¬ (0 : α) < prm.initialMu then .error (.assertion "initial_mu > 0")
  else if ¬ (0 : α) < prm.sigma then .error (.assertion "sigma > 0")
  else if ¬ prm.sigma ≤ (1 : α) then .error (.assertion "sigma <= 1")
  else if ¬ (0 : α) < prm.terminationKktTol then .error (.assertion "termination_kkt_tol > 0")
  else if ¬ 0 < prm.maxIterations then .error (.assertion "max_iterations > 0")
  else .ok ()

namespace IP

variable {N M K : Nat}

/-- The lower triangle of the `(N+K)×(N+K)` matrix `H_`, mirrored: what `LDLT<MatrixXd, Lower>` sees
(`qp.cc:302`). Row/column order is `inl 0 < inl 1 < ... < inr 0 < ...`. -/
def symRed (H : Red N K → Red N K → α) : Red N K → Red N K → α
  | .inl i, .inl j => if j ≤ i then H (.inl i) (.inl j) else H (.inl j) (.inl i)
  | .inl i, .inr k => H (.inr k) (.inl i)
  | .inr k, .inl i => H (.inr k) (.inl i)
  | .inr k, .inr l => if l ≤ k then H (.inr k) (.inr l) else H (.inr l) (.inr k)

/-- State after `Setup` (`qp.cc:40-56`): `H_` is zeroed, everything else holds whatever the (re)allocated
memory holds (`resize` does not initialise), here `junk`. -/
def setupState (junk : IPState N M K α) : IPState N M K α := { junk with H := fun _ _ => 0 }

/-- `EvaluateKKTConditions` (`qp.cc:391-420`). -/
def evaluateKKT (p : QP N M K α) (incl : Bool) (st : IPState N M K α) : IPState N M K α :=
  let rd0 : Fin N → α := fun i => matVec (symLower p.G) st.v.x i + p.c i
  let rd1 : Fin N → α := if 0 < K then fun i => rd0 i - matTVec p.A st.v.y i else rd0
  let rpe : Fin K → α := if 0 < K then fun k => matVec p.A st.v.x k + p.b k else st.r.y
  if incl then
    let rd2 : Fin N → α := (List.finRange M).foldl (fun rd i =>
      let c := p.con i
      Function.update rd c.var (rd c.var - c.a * st.v.z i)) rd1
    { st with r := {
        x := rd2
        s := fun i => st.v.s i * st.v.z i
        y := rpe
        z := fun i => (p.con i).a * st.v.x (p.con i).var + (p.con i).b - st.v.s i } }
  else
    { st with r := { st.r with x := rd1, y := rpe } }

/-- First half of `ComputeLDLT` (`qp.cc:288-298`): fill the lower triangle of `H_`. Entries above the
diagonal of the top-left block, the top-right block and the bottom-right block keep their old value. -/
def fillH (p : QP N M K α) (incl : Bool) (st : IPState N M K α) : Red N K → Red N K → α :=
  let H0 : Red N K → Red N K → α := fun r c =>
    match r, c with
    | .inl i, .inl j => if j ≤ i then p.G i j else st.H (.inl i) (.inl j)
    | .inr k, .inl j => if 0 < K then p.A k j else st.H (.inr k) (.inl j)
    | r, c => st.H r c
  if incl then
    (List.finRange M).foldl (fun H i =>
      let c := p.con i
      Function.update H (.inl c.var)
        (Function.update (H (.inl c.var)) (.inl c.var)
          (H (.inl c.var) (.inl c.var) + c.a * (st.v.z i / st.v.s i) * c.a))) H0
  else H0

/-- `ComputeLDLT` (`qp.cc:275-316`). -/
def computeLDLT (E : Eigen N K α) (p : QP N M K α) (incl : Bool) (st : IPState N M K α) :
    SRes (IPState N M K α) (IPState N M K α) :=
  if incl = false ∨ ∀ i, (0 : α) < st.v.s i then
    let st1 := { st with H := fillH p incl st }
    match E.ldltInverse (symRed st1.H) with
    | none => .error (.failedFactorization, st1)
    | some Hinv => .ok { st1 with Hinv := Hinv, delta := Blocks.zero, deltaAff := Blocks.zero }
  else .error (.assertion "Some slack variables s <= 0", st)

/-- The right-hand-side elimination loop of `SolveForUpdate` (`qp.cc:336-342`). -/
def dualAug (p : QP N M K α) (mu : α) (st : IPState N M K α) : Fin N → α :=
  (List.finRange M).foldl (fun rda i =>
    let c := p.con i
    let rda := Function.update rda c.var (rda c.var + c.a * (st.v.z i / st.v.s i) * st.r.z i)
    Function.update rda c.var
      (rda c.var + c.a * (st.r.s i + st.deltaAff.s i * st.deltaAff.z i - mu) / st.v.s i)) st.r.x

/-- `dx` as computed from `H_inv_` and a right-hand side (`qp.cc:350-352`, `qp.cc:379-381`). -/
def applyInvX (st : IPState N M K α) (rx : Fin N → α) : Fin N → α :=
  let dx0 : Fin N → α := fun i => dot (fun j => st.Hinv (.inl i) (.inl j)) (fun j => - rx j)
  if 0 < K then fun i => dx0 i + dot (fun k => st.Hinv (.inl i) (.inr k)) (fun k => - st.r.y k) else dx0

/-- `dy` as computed from `H_inv_` and a right-hand side (`qp.cc:353-355`, `qp.cc:382-384`). -/
def applyInvY (st : IPState N M K α) (rx : Fin N → α) : Fin K → α :=
  if 0 < K then fun k =>
    dot (fun j => st.Hinv (.inr k) (.inl j)) rx + dot (fun l => st.Hinv (.inr k) (.inr l)) st.r.y
  else st.delta.y

/-- `SolveForUpdate` (`qp.cc:318-364`). -/
def solveForUpdate (p : QP N M K α) (mu : α) (st : IPState N M K α) : IPState N M K α :=
  let rda := dualAug p mu st
  let dx := applyInvX st rda
  let ds : Fin M → α := fun i => (p.con i).a * dx (p.con i).var + st.r.z i
  let dz : Fin M → α := fun i =>
    -(st.v.z i / st.v.s i) * ds i -
      (1 / st.v.s i) * (st.r.s i + st.deltaAff.s i * st.deltaAff.z i - mu)
  { st with rDualAug := rda, delta := ⟨dx, ds, applyInvY st rda, dz⟩ }

/-- `SolveForUpdateNoInequalities` (`qp.cc:366-386`). -/
def solveForUpdateNoIneq (st : IPState N M K α) : IPState N M K α :=
  { st with delta := { st.delta with x := applyInvX st st.r.x, y := applyInvY st st.r.x } }

/-- The loop of `ComputeAlpha(val, d_val, tau)` (`qp.cc:496-506`). -/
def alphaLoop {n : Nat} (val d : Fin n → α) (tau : α) : α :=
  (List.finRange n).foldl (fun alpha i =>
    if val i + d i ≤ 0 ∧ 0 < Scalar.abs (d i) then
      let cand := -tau * val i / d i
      if cand < alpha then cand else alpha
    else alpha) 1

/-- `ComputeAlpha(AlphaValues*, tau)` (`qp.cc:485-489`). The range assertions on `tau`
(`qp.cc:494-495`) are on the two literals `1.0` and `0.995` the code passes. -/
def computeAlpha (st : IPState N M K α) (tau : α) : AlphaValues α :=
  ⟨alphaLoop st.v.s st.delta.s tau, alphaLoop st.v.z st.delta.z tau⟩

/-- `ComputeMu` (`qp.cc:509-516`). -/
def computeMu (st : IPState N M K α) : α :=
  if 0 < M then dot st.v.s st.v.z / Scalar.lit M else 0

/-- `ComputePredictorCorrectorMuAffine` (`qp.cc:518-537`). -/
def muAffine (mu : α) (ap : AlphaValues α) (st : IPState N M K α) : α :=
  let m1 := mu + ap.dual * dot st.v.s st.deltaAff.z / Scalar.lit M
  let m2 := m1 + ap.primal * dot st.v.z st.deltaAff.s / Scalar.lit M
  let m3 := m2 + (ap.dual * ap.primal) * dot st.deltaAff.s st.deltaAff.z / Scalar.lit M
  cmax m3 0

/-- The literal `0.995` (`qp.cc:192`). -/
def tauStep : α := Scalar.lit (995 / 1000)

/-- The update at the end of `Iterate` (`qp.cc:195-199`). -/
def applyStep (al : AlphaValues α) (st : IPState N M K α) : IPState N M K α :=
  { st with v := {
      x := fun i => st.v.x i + st.delta.x i * al.primal
      s := fun i => st.v.s i + st.delta.s i * al.primal
      y := fun i => st.v.y i + st.delta.y i * al.dual
      z := fun i => st.v.z i + st.delta.z i * al.dual } }

/-- The direction part of `Iterate` (`qp.cc:158-188`): the state with `delta_` filled, the barrier
parameter used, and the probe values. -/
def direction (p : QP N M K α) (mu : α) (strategy : BarrierStrategy) (st : IPState N M K α) :
    IPState N M K α × α × Option (AlphaValues α × α) :=
  if ¬ 0 < M then (solveForUpdate p 0 st, mu, none)
  else if strategy ≠ .predictorCorrector then (solveForUpdate p mu st, mu, none)
  else
    let st1 := solveForUpdate p 0 st
    let probe := computeAlpha st1 1
    let st2 := { st1 with deltaAff := st1.delta }
    let ma := muAffine mu probe st2
    let sigma := Scalar.cube (ma / mu)
    let mu' := sigma * mu
    (solveForUpdate p mu' st2, mu', some (probe, ma))

/-- `Iterate` (`qp.cc:153-201`). -/
def iterate (E : Eigen N K α) (p : QP N M K α) (mu : α) (strategy : BarrierStrategy)
    (st : IPState N M K α) :
    SRes (IPState N M K α) (IPState N M K α × IPIterationOutputs α) :=
  match computeLDLT E p true (evaluateKKT p true st) with
  | .error e => .error e
  | .ok st1 =>
    let d := direction p mu strategy st1
    let st2 := d.1
    let al : AlphaValues α := if 0 < M then computeAlpha st2 tauStep else ⟨1, 1⟩
    .ok (applyStep al st2, ⟨d.2.1, al, d.2.2.map Prod.fst, d.2.2.map Prod.snd⟩)

/-- `ComputeErrors` (`qp.cc:423-437`). -/
def computeErrors (mu : α) (st : IPState N M K α) : KKTError α where
  rDual := norm2 st.r.x
  rPrimalEq := if 0 < K then norm2 st.r.y else 0
  rComp := if 0 < M then
      Scalar.sqrt (cmax (squaredNorm st.r.s - Scalar.lit 2 * (vsum st.r.s * mu)
        + (mu * mu) * Scalar.lit M) 0)
    else 0
  rPrimalIneq := if 0 < M then norm2 st.r.z else 0

/-- The clamping loop of `ComputeInitialGuess` (`qp.cc:463-467`): the vector, and a fault if `ClampX`
throws (with the vector as it is then). -/
def clampAll (p : QP N M K α) : List (Fin M) → (Fin N → α) → Except (Fault × (Fin N → α)) (Fin N → α)
  | [], x => .ok x
  | i :: is, x =>
    match (p.con i).toIneq.clampX (x (p.con i).var) with
    | .error e => .error (e, x)
    | .ok v => clampAll p is (Function.update x (p.con i).var v)

/-- The literal `1.0e-9` (`qp.cc:475`). -/
def minSlack : α := Scalar.lit (1 / 10 ^ 9)

/-- The second half of `ComputeInitialGuess` (`qp.cc:463-481`): clamp `x`, then fill `s` and `z`. -/
def finishGuess (p : QP N M K α) (st : IPState N M K α) : SRes (IPState N M K α) (IPState N M K α) :=
  match clampAll p (List.finRange M) st.v.x with
  | .error (e, x) => .error (e, { st with v := { st.v with x := x } })
  | .ok x =>
    let s : Fin M → α := fun i => cmax minSlack ((p.con i).a * x (p.con i).var + (p.con i).b)
    .ok { st with v := { st.v with x := x, s := s, z := fun i => 1 / s i } }

/-- `ComputeInitialGuess` (`qp.cc:439-482`). -/
def initialGuess (E : Eigen N K α) (p : QP N M K α) (method : InitialGuessMethod)
    (st : IPState N M K α) : SRes (IPState N M K α) (IPState N M K α) :=
  match method with
  | .userProvided => .ok st
  | .naive => finishGuess p { st with v := { st.v with x := fun _ => 0, y := fun _ => 0 } }
  | .solveEqualityConstrained =>
    match computeLDLT E p false { st with v := { st.v with x := fun _ => 0, y := fun _ => 0 } } with
    | .error e => .error e
    | .ok st1 =>
      let st2 := solveForUpdateNoIneq (evaluateKKT p false st1)
      finishGuess p { st2 with v := { st2.v with x := st2.delta.x, y := st2.delta.y } }

/-- `minCoeff()` of a non-empty vector. -/
def minCoeff {n : Nat} (v : Fin (n + 1) → α) : α :=
  (List.finRange n).foldl (fun m i => if v i.succ < m then v i.succ else m) (v 0)

/-- `maxCoeff()` of a non-empty vector. -/
def maxCoeff {n : Nat} (v : Fin (n + 1) → α) : α :=
  (List.finRange n).foldl (fun m i => if m < v i.succ then v i.succ else m) (v 0)

/-- `ComputeLagrangeMultiplierSummary` (`qp.cc:539-546`). `lpNorm<Infinity>()` is the maximum of the
absolute values. -/
def lagrangeSummary : {K : Nat} → (Fin K → α) → Option (QPLagrangeMultipliers α)
  | 0, _ => none
  | _ + 1, y => some ⟨minCoeff y, maxCoeff fun i => Scalar.abs (y i)⟩

/-- The barrier update at the end of the loop body of `Solve` (`qp.cc:139-146`). -/
def nextMu (prm : QPParams α) (kktAfter : KKTError α) (st : IPState N M K α) (mu : α) : α :=
  if kktAfter.max ≤ mu ∨ prm.decreaseMuOnlyOnSmallError = false then
    if prm.barrierStrategy = .fixedDecrease then mu * prm.sigma
    else prm.sigma * computeMu st
  else mu

/-- The loop of `Solve` (`qp.cc:116-150`); the first argument is the number of iterations left. -/
def solveLoop (E : Eigen N K α) (p : QP N M K α) (prm : QPParams α) :
    Nat → IPState N M K α → α → List (QPIteration α) →
      SRes (IPState N M K α) (IPState N M K α × QPOutputs α)
  | 0, st, _, log => .ok (st, ⟨.maxIterations, log, lagrangeSummary st.v.y⟩)
  | n + 1, st, mu, log =>
    let kktPrev := computeErrors mu st
    match iterate E p mu prm.barrierStrategy st with
    | .error e => .error e
    | .ok (st1, out) =>
      let st2 := evaluateKKT p true st1
      let kktAfter := computeErrors mu st2
      let log' := log ++ [⟨kktPrev, kktAfter, out⟩]
      if kktAfter.max < prm.terminationKktTol ∧
          computeMu st2 < prm.terminationComplementarityTol then
        .ok (st2, ⟨.satisfiedKktTol, log', lagrangeSummary st2.v.y⟩)
      else solveLoop E p prm n st2 (nextMu prm kktAfter st2 mu) log'

/-- The barrier parameter at the start of the loop (`qp.cc:115`). -/
def initialMu (prm : QPParams α) (st : IPState N M K α) : α :=
  if prm.initializeMuWithComplementarity then computeMu st else prm.initialMu

/-- `Solve` (`qp.cc:100-151`). -/
def solve (E : Eigen N K α) (p : QP N M K α) (prm : QPParams α) (st : IPState N M K α) :
    SRes (IPState N M K α) (IPState N M K α × QPOutputs α) :=
  match checkParams prm with
  | .error e => .error (e, st)
  | .ok _ =>
    match initialGuess E p prm.initialGuessMethod st with
    | .error e => .error e
    | .ok st0 =>
      let st1 := evaluateKKT p true st0
      solveLoop E p prm prm.maxIterations.toNat st1 (initialMu prm st1) []

end IP
end MiniOpt
