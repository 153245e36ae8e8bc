import Verif.Model.Assertions

/-!
# What the text of an assertion says

The lines of the message, written out.
-/

set_option autoImplicit false

namespace MiniOpt.Spec

open MiniOpt

/-- The lines every message begins with: the condition, the file and the line. -/
def headText (condition file : List Char) (line : Int) : List Char :=
  "Assertion failed: ".toList ++ condition ++ "\nFile: ".toList ++ file ++ "\nLine: ".toList ++ Trace.fmtInt line

/-- The line with the operands of a comparison. -/
def operandText (aStr a bStr b : List Char) : List Char :=
  "\nOperands are: `".toList ++ aStr ++ "` = ".toList ++ a ++ ", `".toList ++ bStr ++ "` = ".toList ++ b

/-- The line with the reason, if one was given. -/
def reasonText : Option (List Char) → List Char
  | none => []
  | some r => "\nReason: ".toList ++ r

/-- A text without braces means itself to `fmt`. -/
def Plain (t : List Char) : Prop := '{' ∉ t ∧ '}' ∉ t

/-- A text with every brace doubled, the way to write braces in a format. -/
def bracesDoubled (t : List Char) : List Char := t.flatMap fun c => if c = '{' ∨ c = '}' then [c, c] else [c]

/-- The reasons of the library's assertions that have no arguments (`qp.cc`, `nonlinear.cc`, `qp.hpp`, `residual.hpp`). -/
def libraryReasons : List String :=
  ["Must pass a non-null problem", "G must be square", "Dims of G and c must match", "Rows of A_e and b_e must match",
   "Constraint index is out of bounds", "Must have a valid problem", "Cannot call unless initialized",
   "Problem must have at least one equality constraint", "Need at least one variable", "Must have logged a step",
   "Mismatch between dx and c", "Mismatch between dx and A_eq", "This must be satisfied for the system to be solvable",
   "`a` cannot be zero", "Index exceeds the number of params", "Output vector is wrong dimension",
   "Index exceeds bounds of hessian", "Index exceeds the size of the Jacobian"]

end MiniOpt.Spec
