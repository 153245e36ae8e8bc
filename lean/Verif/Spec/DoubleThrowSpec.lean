import Verif.Spec.NLSSpec
import Verif.Spec.DoubleSpec
import Verif.Model.Nonlinear

/-! # What is wrong when a solver throws in binary64 (C109) -/

set_option autoImplicit false

namespace MiniOpt.Spec

open MiniOpt

variable {L : Libm}

/-- A slack `s` and its change `ds` are at the ends of the range of doubles: one of them is infinite or NaN, the slack is
below `2^-1000`, or the change is more than `2^1000` times as large. -/
def OutOfRange (s ds : Dbl L) : Prop :=
  ¬ Scalar.isFinite s ∨ ¬ Scalar.isFinite ds ∨ s.toRat < (2 : ℚ) ^ (-1000 : ℤ) ∨
    (2 : ℚ) ^ (1000 : ℤ) * s.toRat < |ds.toRat|

/-- Slack `m` of the state an interior point solve leaves behind is not positive, and this is the work of overflow or
underflow in the last iteration: the slack was positive before, and it or the change the solver computed for it was out of
range. -/
def SlackLost {N M K : Nat} (st : IPState N M K (Dbl L)) (m : Fin M) : Prop :=
  ¬ 0 < st.v.s m ∧ ∃ s alpha : Dbl L, 0 < s ∧ 0 ≤ alpha ∧ alpha ≤ 1 ∧ st.v.s m = s + st.delta.s m * alpha ∧
    OutOfRange s (st.delta.s m)

end MiniOpt.Spec
