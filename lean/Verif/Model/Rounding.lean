import Mathlib.Tactic.Ring
import Mathlib.Tactic.Linarith
import Mathlib.Tactic.NormNum
import Mathlib.Tactic.FieldSimp
import Mathlib.Data.Rat.Floor
import Mathlib.Data.Nat.Sqrt
import Mathlib.Algebra.Order.Floor.Ring

/-!
# Rounding to IEEE 754 binary64 (`double`)

Every numerical function in `/repo/source` and `/repo/include` computes with `double`.  This file defines the set of
its finite magnitudes and rounding to nearest, ties to even; `Verif/Model/F64.lean` defines the operations.
-/

set_option autoImplicit false

namespace MiniOpt

namespace F64

/-- `2 ^ k` as a rational. -/
def pow2 (k : Int) : ℚ := if 0 ≤ k then ((2 ^ k.toNat : Nat) : ℚ) else 1 / ((2 ^ (-k).toNat : Nat) : ℚ)

/-- The `k` with `2 ^ k ≤ q < 2 ^ (k + 1)`, for `0 < q`. -/
def ilog2 (q : ℚ) : Int :=
  let k : Int := (Nat.log2 q.num.natAbs : Int) - (Nat.log2 q.den : Int)
  if pow2 k ≤ q then k else k - 1

/-- Nearest integer, ties to even. -/
def rne (q : ℚ) : Int :=
  let f := q.floor
  if q - f < 1 / 2 then f
  else if 1 / 2 < q - f then f + 1
  else if f % 2 = 0 then f else f + 1

/-- Exponent of the last place of doubles near `q > 0`. -/
def ulpExp (q : ℚ) : Int := max (ilog2 q - 52) (-1074)

/-- The double nearest to `q ≥ 0`, if the exponent range were unbounded above. -/
def roundMag (q : ℚ) : ℚ := if q = 0 then 0 else rne (q / pow2 (ulpExp q)) * pow2 (ulpExp q)

/-- The magnitudes of doubles: `m * 2 ^ e` with `m < 2 ^ 53` and `-1074 ≤ e`, below `2 ^ 1024`. -/
def IsMag (q : ℚ) : Prop :=
  (∃ (m : Nat) (e : Int), m < 2 ^ 53 ∧ -1074 ≤ e ∧ q = m * pow2 e) ∧ q < pow2 1024

end F64

end MiniOpt
