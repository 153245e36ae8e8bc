import Verif.Model.F64
import Mathlib.Analysis.Real.Sqrt

/-!
# IEEE 754-2019, section 4.3.1: `roundTiesToEven` for binary64

What the standard says about the result of an operation with a finite exact value, written without reference to how the
model rounds.  Used to check the model of `double` (`Verif/Model/F64.lean`).
-/

set_option autoImplicit false

namespace MiniOpt.Spec

open MiniOpt

/-- The finite numbers of binary64: `± m * 2 ^ e` with `m < 2 ^ 53` and `-1074 ≤ e ≤ 971`. -/
def IsDouble (v : ℝ) : Prop := ∃ (m : Nat) (e : Int), m < 2 ^ 53 ∧ -1074 ≤ e ∧ e ≤ 971 ∧ |v| = m * (2 : ℝ) ^ e

/-- The last digit of the significand is zero (normal numbers have 53 digits, subnormal ones end at `2 ^ -1074`). -/
def EvenDouble (v : ℝ) : Prop := ∃ (m : Nat) (e : Int), m < 2 ^ 53 ∧ -1074 ≤ e ∧ (2 ^ 52 ≤ m ∨ e = -1074) ∧ Even m ∧
  |v| = m * (2 : ℝ) ^ e

/-- "An infinitely precise result with magnitude at least `b^emax (b - ½ b^(1-p))` shall round to infinity." -/
noncomputable def overflowBound : ℝ := (2 : ℝ) ^ (1023 : Int) * (2 - 1 / 2 * (2 : ℝ) ^ (1 - 53 : Int))

/-- The number a finite double stands for. -/
noncomputable def realOf (neg : Bool) (m : Mag) : ℝ := if neg then -(m.1 : ℝ) else (m.1 : ℝ)

/-- `z` is the exact result `x` rounded to nearest, ties to even: the finite double nearest to `x`; if there are two, the one
with an even last digit; infinity from the overflow bound on; the sign is that of `x`. -/
def IsRounded (x : ℝ) : F64 → Prop
  | .nan => False
  | .inf s => overflowBound ≤ |x| ∧ (s = true ↔ x < 0)
  | .fin s m => |x| < overflowBound ∧ IsDouble (realOf s m) ∧
      (∀ v, IsDouble v → |realOf s m - x| ≤ |v - x|) ∧
      (∀ v, IsDouble v → v ≠ realOf s m → |v - x| = |realOf s m - x| → EvenDouble (realOf s m)) ∧
      (x < 0 → s = true) ∧ (0 < x → s = false)

end MiniOpt.Spec
