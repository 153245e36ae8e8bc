import Verif.Spec.RoundOffSpec
import Verif.Model.EigenLDLT

/-!
# Rounding errors of the factorisation and of the linear solves

The vocabulary of the usual componentwise analysis. `f` is what the factorisation computed in doubles: the factor `L` below
the diagonal and the pivots `D`. All sums and products here are exact.
-/

set_option autoImplicit false

namespace MiniOpt.Spec

open MiniOpt

variable {L : Libm} {ι : Type} [DecidableEq ι] [Fintype ι]

/-- Entry of the computed factor `L`, with its unit diagonal. -/
noncomputable def lowerEntry (f : LDLT.Fact ι (Dbl L)) (i j : ι) : ℝ := if i = j then 1 else realVal (f.L i j)

/-- Entry of the exact product `L D Lᵀ` of the computed factors. -/
noncomputable def factorProduct (f : LDLT.Fact ι (Dbl L)) (i j : ι) : ℝ :=
  ∑ l, lowerEntry f i l * (realVal (f.D l) * lowerEntry f j l)

/-- Entry of `|L| |D| |Lᵀ|`. -/
noncomputable def factorMagnitude (f : LDLT.Fact ι (Dbl L)) (i j : ι) : ℝ :=
  ∑ l, |lowerEntry f i l| * (|realVal (f.D l)| * |lowerEntry f j l|)

/-- `(1 + u)^(n + 4)` for `n` rows. -/
noncomputable def ldltGrowth (ι : Type) [Fintype ι] : ℝ := (1 + unitRoundoff) ^ (Fintype.card ι + 4)

/-- What underflow may add to the error of an entry of the factorisation. -/
noncomputable def factorUnderflow (f : LDLT.Fact ι (Dbl L)) (i j : ι) : ℝ :=
  ldltGrowth ι * underflow * (Fintype.card ι + (∑ l, (|lowerEntry f i l| + |lowerEntry f j l|))
    + (|realVal (f.D i)| + |realVal (f.D j)|))

/-- Bound on the residual of a linear system solved with the factorisation: `x` is the computed solution. -/
noncomputable def solveResidual (f : LDLT.Fact ι (Dbl L)) (x : ι → ℝ) (i : ι) : ℝ :=
  (ldltGrowth ι ^ 4 - 1) * (∑ j, factorMagnitude f i j * |x j|)
    + (∑ j, factorUnderflow f i j * |x j|)
    + underflow * ((Fintype.card ι + 1) * ldltGrowth ι ^ 3 * (∑ l, |lowerEntry f i l| * |realVal (f.D l)|)
        + Fintype.card ι * ldltGrowth ι)

end MiniOpt.Spec
