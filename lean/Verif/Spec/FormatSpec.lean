/-!
# Terminal escape sequences
-/

set_option autoImplicit false

namespace MiniOpt.Spec

/-- ASCII 27. -/
def escapeChar : Char := Char.ofNat 27

/-- Removes terminal escape sequences: everything from an escape character up to and including the next `m`. The flag
says whether we are inside a sequence. -/
def stripFrom : Bool → List Char → List Char
  | _, [] => []
  | true, c :: cs => stripFrom (c != 'm') cs
  | false, c :: cs => if c = escapeChar then stripFrom true cs else c :: stripFrom false cs

/-- The text as it appears once the terminal has consumed the escape sequences. -/
def strip (t : List Char) : List Char := stripFrom false t

end MiniOpt.Spec
