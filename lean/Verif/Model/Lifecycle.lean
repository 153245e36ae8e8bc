import Verif.Model.RawQP
import Verif.Model.FlatBlocks

/-!
# An interior point solver object over its lifetime  (`/repo/include/mini_opt/qp.hpp:170-232`, `/repo/source/qp.cc:18-73`, `100-151`, `221-226`)

The object keeps a *pointer* to the user's `QP` (`p_`), the sizes it found at the last `Setup` (`dims_`) and its buffers.
The user's problems live in `mem`, indexed by address; between calls the user may write to them. A history is a list of
calls and writes.
-/

set_option autoImplicit false

namespace MiniOpt

variable {α : Type} [Scalar α]

/-- The data members of `QPInteriorPointSolver` (`qp.hpp:207-232`): `p_`, `dims_`, the size of `variables_`, and the
contents of the buffers (meaningful if `variables_` has the size the dimensions ask for). -/
structure Solver (α : Type) where
  problem : Option Nat
  N : Nat
  M : Nat
  K : Nat
  size : Nat
  st : IPState N M K α

/-- `QPInteriorPointSolver() = default` (`qp.hpp:170`, `qp.hpp:208-232`): null pointer, dimensions `{0, 0, 0}`, empty
buffers (`st` holds no entry then). -/
def Solver.empty (st : IPState 0 0 0 α) : Solver α := ⟨none, 0, 0, 0, 0, st⟩

/-- The size checks of `Setup` (`qp.cc:24-34`). -/
def checkShapes (p : RawQP α) : Res Unit :=
  if p.G.rows ≠ p.G.cols then .error (.assertion "G must be square")
  else if p.G.rows ≠ p.c.rows then .error (.assertion "Dims of G and c must match")
  else if p.Aeq.rows ≠ p.beq.rows then .error (.assertion "Rows of A_e and b_e must match")
  else if 0 < p.Aeq.size ∧ p.Aeq.cols ≠ p.G.rows then .error (.assertion "A_eq.cols() == G.rows()")
  else if ¬ 0 < p.Aeq.size ∧ p.Aeq.rows ≠ 0 then .error (.assertion "A_eq.rows() == 0")
  else if ¬ 0 < p.Aeq.size ∧ p.beq.rows ≠ 0 then .error (.assertion "b_eq.rows() == 0")
  else .ok ()

/-- `Setup` on an object (`qp.cc:20-73`), with what it leaves behind in every case: a null pointer changes nothing; then
the pointer is stored *before* the sizes are checked; the dimensions are stored and the buffers resized *before* the
indices are checked. `junk` is what the resized buffers hold (`H_` is zeroed). -/
def Solver.setup (mem : Nat → RawQP α) (junk : (N M K : Nat) → IPState N M K α) (ptr : Option Nat) (s : Solver α) :
    Solver α × Res Unit :=
  match ptr with
  | none => (s, .error (.assertion "Must pass a non-null problem"))
  | some i =>
    match checkShapes (mem i) with
    | .error e => ({ s with problem := some i }, .error e)
    | .ok _ =>
      let N := (mem i).G.rows
      let M := (mem i).constraints.length
      let K := (mem i).Aeq.rows
      (⟨some i, N, M, K, N + M * 2 + K, IP.setupState (junk N M K)⟩, checkIndices N (mem i).constraints)

/-- The problem has the sizes the object was set up for, and its indices are in range. -/
def RawQP.Fits (p : RawQP α) (N M K : Nat) : Prop :=
  p.InRange ∧ p.G.rows = N ∧ p.constraints.length = M ∧ p.Aeq.rows = K

@[reducible] instance (p : RawQP α) (N M K : Nat) : Decidable (p.Fits N M K) := by unfold RawQP.Fits; infer_instance

/-- The problem as the solver reads it. -/
def RawQP.fitted (p : RawQP α) {N M K : Nat} (h : p.Fits N M K) : QP N M K α :=
  h.2.1 ▸ h.2.2.1 ▸ h.2.2.2 ▸ p.typed h.1

/-- `Solve` on an object (`qp.cc:100-151`). Simplification: a problem that does not have the sizes of the last `Setup`
(Eigen expressions of mismatching sizes and vector accesses out of range, with `EIGEN_NO_DEBUG`) or an index out of
range is undefined behaviour, wherever it would first be hit; so is a `variables_` of another size (too short, the block
accessors are out of range; longer vectors are not modelled). -/
def Solver.solve (E : (N K : Nat) → Eigen N K α) (mem : Nat → RawQP α) (prm : QPParams α) (s : Solver α) :
    Solver α × Res (QPOutputs α) :=
  match s.problem with
  | none => (s, .error (.assertion "Must have a valid problem"))
  | some i =>
    match checkParams prm with
    | .error e => (s, .error e)
    | .ok _ =>
      if h : (mem i).Fits s.N s.M s.K ∧ s.size = s.N + s.M * 2 + s.K then
        match IP.solve (E s.N s.K) ((mem i).fitted h.1) prm s.st with
        | .error (e, st) => ({ s with st := st }, .error e)
        | .ok (st, out) => ({ s with st := st }, .ok out)
      else (s, .error (.ub "sizes or indices of the problem do not fit the solver"))

/-- The blocks of a flat vector (`qp.cc:548-566`). -/
def blocksOf (N M K : Nat) (v : Nat → α) : Blocks N M K α where
  x i := v i
  s i := v (N + i)
  y k := v (N + M + k)
  z i := v (N + M + K + i)

/-- `SetVariables` (`qp.cc:221`): assignment, whatever the size. -/
def Solver.setVariables (v : RawVec α) (s : Solver α) : Solver α :=
  { s with size := v.rows, st := { s.st with v := blocksOf s.N s.M s.K v.get } }

/-- What the user can do. -/
inductive Call (α : Type) where
  | setup (ptr : Option Nat) (junk : (N M K : Nat) → IPState N M K α)
  | solve (prm : QPParams α)
  | setVariables (v : RawVec α)
  | write (addr : Nat) (p : RawQP α)

/-- One call: new memory, new object and, if it threw, what. -/
def act (E : (N K : Nat) → Eigen N K α) (c : Call α) (w : (Nat → RawQP α) × Solver α) :
    ((Nat → RawQP α) × Solver α) × Option Fault :=
  match c with
  | .setup ptr junk =>
    let r := w.2.setup w.1 junk ptr
    ((w.1, r.1), match r.2 with | .ok _ => none | .error e => some e)
  | .solve prm =>
    let r := w.2.solve E w.1 prm
    ((w.1, r.1), match r.2 with | .ok _ => none | .error e => some e)
  | .setVariables v => ((w.1, w.2.setVariables v), none)
  | .write i p => ((Function.update w.1 i p, w.2), none)

/-- A history of calls whose exceptions the user catches; `none` if it runs into undefined behaviour. -/
def runCalls (E : (N K : Nat) → Eigen N K α) : List (Call α) → (Nat → RawQP α) × Solver α →
    Option ((Nat → RawQP α) × Solver α)
  | [], w => some w
  | c :: cs, w =>
    match act E c w with
    | (_, some (.ub _)) => none
    | (w', _) => runCalls E cs w'

end MiniOpt
