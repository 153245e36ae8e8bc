import Verif.Spec.DerivativeSpec
import Mathlib.Data.List.Forall2
import Mathlib.Algebra.Module.Equiv.Basic

/-!
# The same problem in other coordinates (exact arithmetic)

`x = T y` maps the second problem's variables to the first's, `d = A y e` maps steps at `y` to steps at `T y`.
-/

set_option autoImplicit false

namespace MiniOpt.Spec

open MiniOpt MiniOpt.NLS

variable {n m D : Nat}

/-- `r'` is `r` written in the new coordinates: the same values, and the Jacobian follows the chain rule. -/
structure SameResidual (D : Nat) (T : (Fin m → ℝ) → Fin n → ℝ) (A : (Fin m → ℝ) → (Fin D → ℝ) ≃ₗ[ℝ] (Fin D → ℝ))
    (r r' : Residual ℝ) : Prop where
  value : ∀ y : Fin m → ℝ, List.ofFn (valueAt r' y) = List.ofFn (valueAt r (T y))
  slope : ∀ (y : Fin m → ℝ) (e : Fin D → ℝ), List.ofFn (slopeAt r' y e) = List.ofFn (slopeAt r (T y) (A y e))

/-- The log entry without what depends on the coordinates by nature: the QP solver's own outputs and the eigenvalues of
the Hessian. -/
def withoutQP (it : NLSIteration ℝ) : NLSIteration ℝ :=
  { it with qpOutputs := .nullSpace .success, qpEigenvalues := none }

/-- The callbacks, if any, decide alike when they see the same iterations. -/
def SameCallback : Option (List (NLSIteration ℝ) → Bool) → Option (List (NLSIteration ℝ) → Bool) → Prop
  | none, none => True
  | some f, some g => ∀ l l', l.map withoutQP = l'.map withoutQP → f l = g l'
  | _, _ => False

/-- The list `l'` is `l`, each residual written in the new coordinates, in any order. -/
def SameResiduals (D : Nat) (T : (Fin m → ℝ) → Fin n → ℝ) (A : (Fin m → ℝ) → (Fin D → ℝ) ≃ₗ[ℝ] (Fin D → ℝ))
    (l l' : List (Residual ℝ)) : Prop :=
  ∃ l1, List.Forall₂ (SameResidual D T A) l l1 ∧ l1.Perm l'

/-- `env'` is the problem of `env` written in the new coordinates: the residuals agree (listed in any order), moving in the new coordinates and
mapping gives the same as mapping and moving, and the callbacks agree. -/
structure SameProblem (env : Env n D ℝ) (env' : Env m D ℝ) (T : (Fin m → ℝ) → Fin n → ℝ)
    (A : (Fin m → ℝ) → (Fin D → ℝ) ≃ₗ[ℝ] (Fin D → ℝ)) : Prop where
  costs : SameResiduals D T A env.p.costs env'.p.costs
  eqs : SameResiduals D T A env.p.eqs env'.p.eqs
  moves : ∀ y e a x z, retract env (T y) (A y e) a = .ok x → retract env' y e a = .ok z → x = T z
  callback : SameCallback env.callback env'.callback

/-- The change of coordinates preserves the length of every step. -/
def Isometric (A : (Fin m → ℝ) → (Fin D → ℝ) ≃ₗ[ℝ] (Fin D → ℝ)) : Prop :=
  ∀ y e, ∑ i, A y e i ^ 2 = ∑ i, e i ^ 2

/-- No direction leaves every cost's linear model unchanged at `x`. -/
def RegularAt (p : Problem D ℝ) (x : Fin n → ℝ) : Prop :=
  ∀ d : Fin D → ℝ, (∀ r ∈ p.costs, ∀ k, slopeAt r x d k = 0) → d = 0

/-- The variables `x = B y + t`. -/
def affineMap (B : (Fin D → ℝ) ≃ₗ[ℝ] (Fin D → ℝ)) (t : Fin D → ℝ) (y : Fin D → ℝ) : Fin D → ℝ := fun i => B y i + t i

/-- A residual written in the variables `y`, where `x = B y + t`: it reads all of `y`, and its Jacobian is the product with
the matrix of `B`. -/
noncomputable def rewrittenResidual (B : (Fin D → ℝ) ≃ₗ[ℝ] (Fin D → ℝ)) (t : Fin D → ℝ) (r : Residual ℝ) : Residual ℝ where
  dim := r.dim
  P := D
  index l := (l.val : Int)
  value y := r.value (params r (affineMap B t y))
  valueJ y := r.valueJ (params r (affineMap B t y))
  jac y k l := ∑ j, jacAt r (affineMap B t y) D k j * B (Pi.single l 1) j
  throws y := r.throws (params r (affineMap B t y))
  throwsJ y := r.throwsJ (params r (affineMap B t y))

/-- A residual that reads variable `σ i` where it used to read variable `i`. -/
def renamedResidual (σ : Fin D ≃ Fin D) (r : Residual ℝ) : Residual ℝ :=
  { r with index := fun l => if h : 0 ≤ r.index l ∧ r.index l < (D : Int) then
      ((σ ⟨(r.index l).toNat, by omega⟩).val : Int) else r.index l }

end MiniOpt.Spec
