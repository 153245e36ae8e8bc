import Verif.Model.TransformChains
import Mathlib.Analysis.Quaternion
import Mathlib.Analysis.Calculus.FDeriv.Basic
import Mathlib.Analysis.Calculus.Deriv.Basic

/-!
# What transforms and their derivatives are

Rotations are described with Mathlib's quaternions `ℍ[ℝ]`: a unit quaternion `q` turns `v` into the imaginary part of
`q v q*`. Derivatives are Mathlib's. Nothing here uses the formulas of the code.
-/

set_option autoImplicit false

namespace MiniOpt.TC.Spec

open scoped Quaternion

/-- The quaternion as an element of Mathlib's algebra. -/
def toH (q : Quat ℝ) : ℍ[ℝ] := ⟨q.w, q.x, q.y, q.z⟩

/-- A vector as an imaginary quaternion. -/
def im (v : V3 ℝ) : ℍ[ℝ] := ⟨0, v 0, v 1, v 2⟩

/-- A rotation: a quaternion of norm one. -/
def IsUnitQ (q : Quat ℝ) : Prop := Quaternion.normSq (toH q) = 1

/-- `u` is `v` turned by the rotation `q`. -/
def Turns (q : Quat ℝ) (v u : V3 ℝ) : Prop := im u = toH q * im v * star (toH q)

/-- `q' t` is the curve `q exp(t ω)` to first order: its derivative at `t0` is `q (ω / 2)`, so `ω` is its velocity in the
right tangent space of the rotation. -/
def HasRightVelocity (q : ℝ → Quat ℝ) (ω : V3 ℝ) (t0 : ℝ) : Prop :=
  HasDerivAt (fun t => toH (q t)) (toH (q t0) * ((1 / 2 : ℝ) • im ω)) t0

/-- The derivative of a rotation valued function of parameters, in the right tangent space: `D h` is the velocity in
direction `h`. -/
def HasRightDerivative {E : Type} [NormedAddCommGroup E] [NormedSpace ℝ E] (q : E → Quat ℝ) (D : E →L[ℝ] V3 ℝ) (x : E) :
    Prop :=
  ∃ L : E →L[ℝ] ℍ[ℝ], HasFDerivAt (fun x => toH (q x)) L x ∧ ∀ h, L h = toH (q x) * ((1 / 2 : ℝ) • im (D h))

/-- The product of poses, first to last, as maps of space: `[p1, p2]` is `v ↦ p1 (p2 v)`. -/
noncomputable def composed : List (Pose ℝ) → V3 ℝ → V3 ℝ
  | [], v => v
  | p :: ps, v => p.apply (composed ps v)

/-- What is assumed of `math::SO3FromEulerAngles`: it returns a unit quaternion, and `rotation_D_angles` is its right
derivative. -/
structure EulerContract (ext : Ext ℝ) : Prop where
  unit : ∀ a, IsUnitQ (ext.so3 a).1
  deriv : ∀ a, ∃ D : V3 ℝ →L[ℝ] V3 ℝ, (∀ h i, D h i = ∑ j, (ext.so3 a).2 i j * h j) ∧
    HasRightDerivative (fun b => (ext.so3 b).1) D a

end MiniOpt.TC.Spec
