import Verif.Model.Scalar
import Verif.Lemmas.Rounding
import Mathlib.Data.Nat.Sqrt

/-!
# IEEE 754 binary64 (`double`)

The arithmetic every numerical function in `/repo/source` and `/repo/include` is compiled to: binary64 with round to
nearest, ties to even, subnormals, signed zeros, infinities and NaN.  `Dbl L` is the corresponding instance of
`Scalar`.  What IEEE 754 does not fix - the order in which Eigen adds up the terms of a reduction, and
`std::pow(x, 3)` - is a parameter `L : Libm`.  Simplifications: one NaN (payloads and signalling are not
distinguished), no exception flags, no extended precision and no contraction of `a * b + c` into one fused operation.
-/

set_option autoImplicit false

namespace MiniOpt

/-- Magnitudes of finite doubles. -/
def Mag : Type := { q : ℚ // F64.IsMag q }

instance : DecidableEq Mag := fun a b => decidable_of_iff (a.1 = b.1) Subtype.ext_iff.symm

/-- A `double`. `neg` is the sign bit. -/
inductive F64 where
  | nan
  | inf (neg : Bool)
  | fin (neg : Bool) (mag : Mag)
  deriving DecidableEq

namespace F64

/-- The rational value of a finite double. -/
def value (neg : Bool) (m : Mag) : ℚ := if neg then -m.1 else m.1

theorem isMag_zero : IsMag 0 := ⟨⟨0, 0, by norm_num, by norm_num, by norm_num⟩, by decide +kernel⟩

/-- `±0`. -/
def zero (neg : Bool) : F64 := .fin neg ⟨0, isMag_zero⟩

/-- Rounds a magnitude and attaches a sign; overflow gives an infinity. -/
def mk (neg : Bool) (q : ℚ) : F64 :=
  if h : 0 ≤ q ∧ roundMag q < pow2 1024 then .fin neg ⟨roundMag q, roundMag_rep h.1, h.2⟩ else .inf neg

/-- Rounds a rational number; an exact zero gets the sign `negZero`. -/
def round (negZero : Bool) (q : ℚ) : F64 := if q = 0 then zero negZero else mk (q < 0) |q|

/-- Sign bit flipped. -/
def neg : F64 → F64
  | .nan => .nan
  | .inf s => .inf (!s)
  | .fin s m => .fin (!s) m

/-- Sign bit cleared. -/
def abs : F64 → F64
  | .nan => .nan
  | .inf _ => .inf false
  | .fin _ m => .fin false m

/-- Addition. -/
def add : F64 → F64 → F64
  | .nan, _ => .nan
  | _, .nan => .nan
  | .inf s, .inf t => if s = t then .inf s else .nan
  | .inf s, .fin _ _ => .inf s
  | .fin _ _, .inf t => .inf t
  | .fin s a, .fin t b => round (s && t) (value s a + value t b)

/-- Multiplication. -/
def mul : F64 → F64 → F64
  | .nan, _ => .nan
  | _, .nan => .nan
  | .inf s, .inf t => .inf (s != t)
  | .inf s, .fin t b => if b.1 = 0 then .nan else .inf (s != t)
  | .fin s a, .inf t => if a.1 = 0 then .nan else .inf (s != t)
  | .fin s a, .fin t b => mk (s != t) (a.1 * b.1)

/-- Division. -/
def div : F64 → F64 → F64
  | .nan, _ => .nan
  | _, .nan => .nan
  | .inf _, .inf _ => .nan
  | .inf s, .fin t _ => .inf (s != t)
  | .fin s _, .inf t => zero (s != t)
  | .fin s a, .fin t b =>
    if b.1 = 0 then if a.1 = 0 then .nan else .inf (s != t) else mk (s != t) (a.1 / b.1)

/-- `<`: false if an operand is NaN. -/
def lt : F64 → F64 → Bool
  | .nan, _ => false
  | _, .nan => false
  | .inf s, .inf t => s && !t
  | .inf s, .fin _ _ => s
  | .fin _ _, .inf t => !t
  | .fin s a, .fin t b => value s a < value t b

/-- `<=`: false if an operand is NaN. -/
def le : F64 → F64 → Bool
  | .nan, _ => false
  | _, .nan => false
  | .inf s, .inf t => s || !t
  | .inf s, .fin _ _ => s
  | .fin _ _, .inf t => !t
  | .fin s a, .fin t b => value s a ≤ value t b

/-- `==`: false if an operand is NaN; the two zeros are equal. -/
def eq : F64 → F64 → Bool
  | .inf s, .inf t => s = t
  | .fin s a, .fin t b => value s a = value t b
  | _, _ => false

/-- `std::isfinite`. -/
def isFinite : F64 → Bool
  | .fin _ _ => true
  | _ => false

/-- The square root of a magnitude, to more than enough places for correct rounding: `q * 4 ^ 600` is an integer of
at least 126 bits; if its root is not exact, half a unit is added as a sticky bit. -/
def sqrtMag (q : ℚ) : ℚ :=
  let n := (q * ((4 ^ 600 : Nat) : ℚ)).floor.toNat
  let r := Nat.sqrt n
  ((r : ℚ) + if r * r = n then 0 else 1 / 2) / ((2 ^ 600 : Nat) : ℚ)

/-- `std::sqrt`: correctly rounded; NaN for negative arguments other than `-0`. -/
def sqrt : F64 → F64
  | .nan => .nan
  | .inf s => if s then .nan else .inf false
  | .fin s m => if m.1 = 0 then .fin s m else if s then .nan else mk false (sqrtMag m.1)

end F64

/-- What IEEE 754 leaves open: Eigen's order of summation and `std::pow(x, 3)`. -/
structure Libm where
  sum : List F64 → F64
  cube : F64 → F64

/-- Doubles, with a choice of `Libm`. -/
def Dbl (_ : Libm) : Type := F64

/-- The double operations. -/
instance (L : Libm) : Scalar (Dbl L) where
  zero := F64.zero false
  one := F64.round false 1
  add := F64.add
  sub a b := F64.add a (F64.neg b)
  mul := F64.mul
  div := F64.div
  neg := F64.neg
  lt a b := F64.lt a b = true
  le a b := F64.le a b = true
  decLT _ _ := inferInstanceAs (Decidable (_ = true))
  decLE _ _ := inferInstanceAs (Decidable (_ = true))
  feq a b := F64.eq a b = true
  decFeq _ _ := inferInstanceAs (Decidable (_ = true))
  isFinite a := F64.isFinite a = true
  decFinite _ := inferInstanceAs (Decidable (_ = true))
  abs := F64.abs
  sqrt := F64.sqrt
  cube := L.cube
  lit q := F64.round false q
  sum := L.sum

end MiniOpt
