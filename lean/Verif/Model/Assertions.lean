import Verif.Model.Tracing
import Verif.Model.Scalar

/-!
# The assertion macros  (`/repo/include/mini_opt/assertions.hpp`)

Text is a list of characters.  Operands of the macros are C++ expressions, which may have side effects: evaluating one
takes a state `W` to a new state and a value.
-/

set_option autoImplicit false

namespace MiniOpt.Assert

/-- `fmt::format` / `fmt::format_to` with replacement fields `{}` only, and `{{`, `}}` for the braces themselves; the
arguments are given as the texts `fmt` renders them to. `none` is `fmt::format_error` (too few arguments, a single brace,
or, simplified, a field with a name or a format specification). -/
def format : List Char → List (List Char) → Option (List Char)
  | [], _ => some []
  | '{' :: '{' :: cs, args => (format cs args).map ('{' :: ·)
  | '{' :: '}' :: cs, a :: args => (format cs args).map (a ++ ·)
  | '{' :: _, _ => none
  | '}' :: '}' :: cs, args => (format cs args).map ('}' :: ·)
  | '}' :: _, _ => none
  | c :: cs, args => (format cs args).map (c :: ·)

/-- `assert::constants::message_prefix` (`assertions.hpp:12`). -/
def messagePrefix : List Char := "Assertion failed: {}\nFile: {}\nLine: {}".toList

/-- The part common to both formatters (`assertions.hpp:21-25`, `41-45`): the reason is appended if its format string is
not empty. -/
def appendReason (err reasonFmt : List Char) (args : List (List Char)) : Option (List Char) :=
  if reasonFmt = [] then some err
  else (format reasonFmt args).map fun r => (err ++ "\nReason: ".toList) ++ r

/-- `format_assert` (`assertions.hpp:15-27`). -/
def formatAssert (condition file : List Char) (line : Int) (reasonFmt : List Char) (args : List (List Char)) :
    Option (List Char) :=
  (format messagePrefix [condition, file, Trace.fmtInt line]).bind fun err => appendReason err reasonFmt args

/-- `format_assert_binary` (`assertions.hpp:30-47`). -/
def formatAssertBinary (condition file : List Char) (line : Int) (aStr a bStr b reasonFmt : List Char)
    (args : List (List Char)) : Option (List Char) :=
  (format messagePrefix [condition, file, Trace.fmtInt line]).bind fun err =>
    (format "\nOperands are: `{}` = {}, `{}` = {}".toList [aStr, a, bStr, b]).bind fun ops =>
      appendReason (err ++ ops) reasonFmt args

/-- What leaves an assertion: `assert::default_error` with its message (`assertions.hpp:50-59`), or the `fmt::format_error`
of a reason that cannot be formatted. -/
inductive Thrown where
  | defaultError (message : List Char)
  | formatError
  deriving DecidableEq

/-- `default_error::what()` (`assertions.hpp:55`): a C string, so it ends at the first NUL. -/
def what (message : List Char) : List Char := message.takeWhile (· ≠ Char.ofNat 0)

/-- Throwing with the text a handler made (`assertions.hpp:71`, `77`). -/
def raise (text : Option (List Char)) : Except Thrown Unit :=
  match text with
  | some m => .error (.defaultError m)
  | none => .error .formatError

/-- A C++ expression with side effects on `W`. -/
abbrev Expr (W A : Type) := W → W × A

/-- Where an assertion stands: `__FILE__`, `__LINE__`, and the reason given to the macro with its arguments as rendered. -/
structure Site where
  file : List Char
  line : Int
  reasonFmt : List Char
  args : List (List Char)

/-- `F_ASSERT(cond, ...)` (`assertions.hpp:68-73`, `81-82`). The text of the condition is `#cond`. -/
def fAssert {W : Type} (s : Site) (text : List Char) (cond : Expr W Bool) (w : W) : W × Except Thrown Unit :=
  let r := cond w
  if r.2 then (r.1, .ok ())
  else (r.1, raise (formatAssert text s.file s.line s.reasonFmt s.args))

/-- `F_ASSERT_ALWAYS(...)` (`assertions.hpp:75-78`, `84-85`). -/
def fAssertAlways (s : Site) : Except Thrown Unit :=
  raise (formatAssert "Assert always".toList s.file s.line s.reasonFmt s.args)

/-- The six comparisons of `F_ASSERT_EQ` ... `F_ASSERT_GE` (`assertions.hpp:87-110`). -/
inductive Cmp where
  | eq | ne | lt | gt | le | ge
  deriving DecidableEq

/-- The operator in the text of the condition. -/
def Cmp.symbol : Cmp → List Char
  | .eq => "==".toList
  | .ne => "!=".toList
  | .lt => "<".toList
  | .gt => ">".toList
  | .le => "<=".toList
  | .ge => ">=".toList

/-- The comparison of two scalars, as the C++ operator does it. -/
def Cmp.holds {α : Type} [Scalar α] : Cmp → α → α → Prop
  | .eq, a, b => Scalar.feq a b
  | .ne, a, b => ¬ Scalar.feq a b
  | .lt, a, b => a < b
  | .gt, a, b => b < a
  | .le, a, b => a ≤ b
  | .ge, a, b => b ≤ a

/-- Evaluating the two operands of a comparison, or of a call, once each. C++ does not say which comes first. -/
def both {W A B : Type} (aFirst : Bool) (a : Expr W A) (b : Expr W B) (w : W) : W × A × B :=
  if aFirst then ((b (a w).1).1, (a w).2, (b (a w).1).2) else ((a (b w).1).1, (a (b w).1).2, (b w).2)

/-- `F_ASSERT_EQ(a, b, ...)` and its five siblings (`assertions.hpp:87-110` with `68-73`). The macro arguments `a` and `b`
occur twice in the expansion: in the condition, and, if that is false, again among the arguments of the handler; there
they are evaluated a second time. `showA` and `showB` are how `fmt` prints the operands, `first` which operand is evaluated
first in the condition and in the call. The text is `#cond` of `(a) op (b)`. -/
def fAssertBinary {W A B : Type} (s : Site) (op : Cmp) (rel : A → B → Bool) (aStr bStr : List Char) (a : Expr W A)
    (b : Expr W B) (showA : A → List Char) (showB : B → List Char) (first : Bool × Bool) (w : W) :
    W × Except Thrown Unit :=
  let r1 := both first.1 a b w
  if rel r1.2.1 r1.2.2 then (r1.1, .ok ())
  else
    let r2 := both first.2 a b r1.1
    (r2.1, raise (formatAssertBinary ("(".toList ++ aStr ++ ") ".toList ++ op.symbol ++ " (".toList ++ bStr ++ ")".toList)
      s.file s.line aStr (showA r2.2.1) bStr (showB r2.2.2) s.reasonFmt s.args))

end MiniOpt.Assert
