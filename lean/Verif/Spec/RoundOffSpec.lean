import Verif.Spec.DoubleSpec
import Verif.Spec.QPSpec

/-!
# Rounding errors

The vocabulary of rounding error analysis: unit roundoff, the accumulated error of `n` operations, and what is assumed of
Eigen's reductions (`Libm.sum`): the terms are added up, in some order.
-/

set_option autoImplicit false

namespace MiniOpt.Spec

open MiniOpt

variable {L : Libm} {N M K : Nat}

/-- The unit roundoff of binary64, `2^-53`. -/
noncomputable def unitRoundoff : ℝ := (2 : ℝ) ^ (-53 : ℤ)

/-- The largest absolute error of one rounded product that underflows: half the smallest subnormal number. -/
noncomputable def underflow : ℝ := (2 : ℝ) ^ (-1075 : ℤ)

/-- The real number a finite double stands for (0 for infinities and NaN). -/
noncomputable def realVal (x : Dbl L) : ℝ := (x.toRat : ℝ)

/-- The smallest positive normal number of binary64; smaller numbers are stored with fewer than 53 digits. -/
noncomputable def smallestNormal : ℝ := (2 : ℝ) ^ (-1022 : ℤ)

/-- No logged step length has underflowed. -/
def StepsNormal (out : QPOutputs (Dbl L)) : Prop :=
  ∀ it ∈ out.iterations, smallestNormal ≤ realVal it.ip.alpha.primal ∧ smallestNormal ≤ realVal it.ip.alpha.dual

/-- `x` is the result of adding up the terms of the list by rounded additions, in some order and association. -/
inductive AddedUp : List F64 → F64 → Prop
  | none : AddedUp [] (F64.zero false)
  | one (x : F64) : AddedUp [x] x
  | add {l l' l'' : List F64} {x y : F64} : AddedUp l x → AddedUp l' y → l''.Perm (l ++ l') →
      AddedUp l'' (F64.add x y)

/-- Eigen's reductions add up the terms, in an order that may depend on anything. -/
def AddsUp (L : Libm) : Prop := ∀ l, AddedUp l (L.sum l)

/-- Error after at most `n` consecutive roundings of terms whose magnitudes add up to `a`, `m` of which are products that may
underflow. -/
noncomputable def slop (n m : Nat) (a : ℝ) : ℝ :=
  ((1 + unitRoundoff) ^ n - 1) * a + m * (1 + unitRoundoff) ^ n * underflow

/-- A bound on the exact Euclidean norm of `n` doubles whose computed norm is below `tol`. -/
noncomputable def inflated (n : Nat) (tol : ℝ) : ℝ :=
  Real.sqrt ((tol ^ 2 + n * underflow) / (1 - unitRoundoff) ^ n)

/-- A problem in doubles, read as a problem in real numbers. -/
noncomputable def realQP (p : QP N M K (Dbl L)) : QP N M K ℝ where
  G i j := realVal (p.G i j)
  c i := realVal (p.c i)
  A k j := realVal (p.A k j)
  b k := realVal (p.b k)
  con m := ⟨(p.con m).var, realVal (p.con m).a, realVal (p.con m).b⟩

/-- Variables in doubles, read as real numbers. -/
noncomputable def realBlocks (v : Blocks N M K (Dbl L)) : Blocks N M K ℝ where
  x i := realVal (v.x i)
  s i := realVal (v.s i)
  y i := realVal (v.y i)
  z i := realVal (v.z i)

/-- The magnitudes of the terms of the gradient of the Lagrangian, added up. -/
noncomputable def gradMagnitude (p : QP N M K ℝ) (v : Blocks N M K ℝ) (i : Fin N) : ℝ :=
  (∑ j, |Gsym p i j * v.x j|) + |p.c i| + (∑ k, |p.A k i * v.y k|)
    + ∑ m, if (p.con m).var = i then |(p.con m).a * v.z m| else 0

/-- The magnitudes of the terms of an equality constraint, added up. -/
noncomputable def eqMagnitude (p : QP N M K ℝ) (x : Fin N → ℝ) (k : Fin K) : ℝ := (∑ j, |p.A k j * x j|) + |p.b k|

/-- The magnitudes of the terms of an inequality constraint with its slack, added up. -/
noncomputable def ineqMagnitude (p : QP N M K ℝ) (v : Blocks N M K ℝ) (m : Fin M) : ℝ :=
  |(p.con m).a * v.x (p.con m).var| + |(p.con m).b| + |v.s m|

end MiniOpt.Spec
