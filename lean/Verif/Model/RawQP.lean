import Verif.Model.QP

/-!
# Raw problems and `Setup`  (`/repo/source/qp.cc:18-73`)

The user hands the solver Eigen matrices of any size and `int` indices.  `setup` is the sequence of
assertions of `Setup`.  `RawQP.solve` runs the typed solver of `Verif/Model/QP.lean` when every access it
performs is in range, and is `Fault.ub` otherwise.
-/

set_option autoImplicit false

namespace MiniOpt

variable {α : Type} [Scalar α]

/-- `Eigen::MatrixXd`: dimensions and coefficients (coefficients outside the dimensions are junk). -/
structure RawMat (α : Type) where
  rows : Nat
  cols : Nat
  get : Nat → Nat → α

/-- `Eigen::VectorXd`. -/
structure RawVec (α : Type) where
  rows : Nat
  get : Nat → α

/-- `MatrixXd::size()`. -/
def RawMat.size (m : RawMat α) : Nat := m.rows * m.cols

/-- `struct QP` (`qp.hpp:103-123`) as the user fills it. -/
structure RawQP (α : Type) where
  G : RawMat α
  c : RawVec α
  Aeq : RawMat α
  beq : RawVec α
  constraints : List (Ineq α)

/-- The final loop of `Setup` (`qp.cc:70-72`): only `variable < N` is asserted. -/
def checkIndices (N : Nat) : List (Ineq α) → Res Unit
  | [] => .ok ()
  | c :: cs => if ¬ c.var < (N : Int) then .error (.assertion "Constraint index is out of bounds")
               else checkIndices N cs

/-- `Setup` (`qp.cc:20-73`); `none` is a null pointer. -/
def setup (problem : Option (RawQP α)) : Res (RawQP α) :=
  match problem with
  | none => .error (.assertion "Must pass a non-null problem")
  | some p =>
    if p.G.rows ≠ p.G.cols then .error (.assertion "G must be square")
    else if p.G.rows ≠ p.c.rows then .error (.assertion "Dims of G and c must match")
    else if p.Aeq.rows ≠ p.beq.rows then .error (.assertion "Rows of A_e and b_e must match")
    else if 0 < p.Aeq.size ∧ p.Aeq.cols ≠ p.G.rows then .error (.assertion "A_eq.cols() == G.rows()")
    else if ¬ 0 < p.Aeq.size ∧ p.Aeq.rows ≠ 0 then .error (.assertion "A_eq.rows() == 0")
    else if ¬ 0 < p.Aeq.size ∧ p.beq.rows ≠ 0 then .error (.assertion "b_eq.rows() == 0")
    else match checkIndices p.G.rows p.constraints with
      | .error e => .error e
      | .ok _ => .ok p

/-- Every element access performed by `Solve` (`qp.cc:100-546`) is in range: `G` is N×N, `c` has N
entries, `A_eq` is K×N when K>0, `b_eq` has K entries, all constraint indices are in `[0, N)`. -/
def RawQP.InRange (p : RawQP α) : Prop :=
  p.G.cols = p.G.rows ∧ p.c.rows = p.G.rows ∧ (0 < p.Aeq.rows → p.Aeq.cols = p.G.rows) ∧
    p.beq.rows = p.Aeq.rows ∧ ∀ c ∈ p.constraints, 0 ≤ c.var ∧ c.var < (p.G.rows : Int)

@[reducible] instance (p : RawQP α) : Decidable p.InRange := by unfold RawQP.InRange; infer_instance

/-- The typed problem; `dims_` is `qp.cc:36-38`. -/
def RawQP.typed (p : RawQP α) (h : p.InRange) :
    QP p.G.rows p.constraints.length p.Aeq.rows α where
  G i j := p.G.get i j
  c i := p.c.get i
  A k j := p.Aeq.get k j
  b k := p.beq.get k
  con i := ⟨⟨(p.constraints.get i).var.toNat, by
      have := h.2.2.2.2 _ (List.get_mem p.constraints i)
      omega⟩, (p.constraints.get i).a, (p.constraints.get i).b⟩

/-- `QPInteriorPointSolver(&p)` followed by `Solve(params)` (`qp.cc:18`, `qp.cc:100-151`). `junk` is the
content of the freshly sized buffers. Simplification: an out-of-range index is reported as `ub` before
any other fault that might come first inside `Solve` (a failed factorisation). -/
def RawQP.setupAndSolve (p : Option (RawQP α))
    (E : (N K : Nat) → Eigen N K α) (prm : QPParams α)
    (junk : (N M K : Nat) → IPState N M K α) :
    Res ((q : RawQP α) × IPState q.G.rows q.constraints.length q.Aeq.rows α × QPOutputs α) :=
  match setup p with
  | .error e => .error e
  | .ok q =>
    match checkParams prm with
    | .error e => .error e
    | .ok _ =>
      if h : q.InRange then
        match IP.solve (E _ _) (q.typed h) prm (IP.setupState (junk _ _ _)) with
        | .error e => .error e.1
        | .ok out => .ok ⟨q, out⟩
      else .error (.ub "element access out of range in Solve")

end MiniOpt
