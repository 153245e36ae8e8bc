import Mathlib.Data.List.Basic

/-!
# The JSON text grammar (RFC 8259), as far as integers, strings, literals, arrays and objects go

Independent of the program: used to say what "valid JSON" means.
-/

set_option autoImplicit false

namespace MiniOpt.Spec

/-- JSON values. `num` is a number with a fraction or exponent, kept as text. -/
inductive JText where
  | null
  | bool (b : Bool)
  | int (i : Int)
  | num (text : List Char)
  | str (s : List Char)
  | arr (l : List JText)
  | obj (l : List (List Char × JText))

/-- Insignificant white space (RFC 8259 section 2). -/
def IsWs (t : List Char) : Prop := ∀ c ∈ t, c = ' ' ∨ c = '\t' ∨ c = '\n' ∨ c = '\r'

/-- Value of a decimal digit. -/
def IsDigit (d : Nat) (c : Char) : Prop := d < 10 ∧ c.toNat = 48 + d

/-- `int` of RFC 8259 section 6: `0`, or digits without a leading zero. -/
inductive IsNat : Nat → List Char → Prop where
  | one {d : Nat} {c : Char} : IsDigit d c → IsNat d [c]
  | more {n d : Nat} {t : List Char} {c : Char} : 0 < n → IsNat n t → IsDigit d c → IsNat (10 * n + d) (t ++ [c])

/-- Integers: an optional minus sign and an `int`. -/
inductive IsInt : Int → List Char → Prop where
  | pos {n : Nat} {t : List Char} : IsNat n t → IsInt n t
  | neg {n : Nat} {t : List Char} : IsNat n t → IsInt (-n) ('-' :: t)

/-- Numbers with a fraction or exponent (RFC 8259 section 6). -/
inductive IsFrac : List Char → Prop where
  | mk {i : Int} {t f e : List Char} : IsInt i t →
      (f = [] ∨ ∃ c ds, f = '.' :: c :: ds ∧ (∀ x ∈ c :: ds, ∃ d, IsDigit d x)) →
      (e = [] ∨ ∃ m sgn c ds, (m = 'e' ∨ m = 'E') ∧ (sgn = [] ∨ sgn = ['+'] ∨ sgn = ['-']) ∧
        e = m :: sgn ++ c :: ds ∧ (∀ x ∈ c :: ds, ∃ d, IsDigit d x)) →
      (f ≠ [] ∨ e ≠ []) → IsFrac (t ++ f ++ e)

/-- Value of a hexadecimal digit. -/
def IsHex (d : Nat) (c : Char) : Prop :=
  (d < 10 ∧ c.toNat = 48 + d) ∨ (10 ≤ d ∧ d < 16 ∧ (c.toNat = 55 + d ∨ c.toNat = 87 + d))

/-- The two-character escapes (RFC 8259 section 7): the character after the backslash and its meaning. -/
def escapes : List (Char × Char) :=
  [('"', '"'), ('\\', '\\'), ('/', '/'), ('b', '\x08'), ('f', '\x0c'), ('n', '\n'), ('r', '\r'), ('t', '\t')]

/-- Contents of a string between the quotes: the value and the text (RFC 8259 section 7). -/
inductive IsStr : List Char → List Char → Prop where
  | nil : IsStr [] []
  | plain {c : Char} {s t : List Char} : c ≠ '"' → c ≠ '\\' → 32 ≤ c.toNat → IsStr s t → IsStr (c :: s) (c :: t)
  | esc {c v : Char} {s t : List Char} : (c, v) ∈ escapes → IsStr s t → IsStr (v :: s) ('\\' :: c :: t)
  | unicode {a b c d : Nat} {x y z w : Char} {s t : List Char} : IsHex a x → IsHex b y → IsHex c z → IsHex d w →
      IsStr s t → IsStr (Char.ofNat (((a * 16 + b) * 16 + c) * 16 + d) :: s) ('\\' :: 'u' :: x :: y :: z :: w :: t)

mutual
/-- A JSON value and a text denoting it. -/
inductive IsValue : JText → List Char → Prop where
  | null : IsValue .null ['n', 'u', 'l', 'l']
  | true : IsValue (.bool true) ['t', 'r', 'u', 'e']
  | false : IsValue (.bool false) ['f', 'a', 'l', 's', 'e']
  | int {i : Int} {t : List Char} : IsInt i t → IsValue (.int i) t
  | num {t : List Char} : IsFrac t → IsValue (.num t) t
  | str {s t : List Char} : IsStr s t → IsValue (.str s) ('"' :: t ++ ['"'])
  | arrNil {w : List Char} : IsWs w → IsValue (.arr []) ('[' :: w ++ [']'])
  | arr {l : List JText} {t : List Char} : IsElems l t → IsValue (.arr l) ('[' :: t ++ [']'])
  | objNil {w : List Char} : IsWs w → IsValue (.obj []) ('{' :: w ++ ['}'])
  | obj {l : List (List Char × JText)} {t : List Char} : IsMembers l t → IsValue (.obj l) ('{' :: t ++ ['}'])
/-- Comma separated elements. -/
inductive IsElems : List JText → List Char → Prop where
  | one {v : JText} {a t b : List Char} : IsWs a → IsValue v t → IsWs b → IsElems [v] (a ++ t ++ b)
  | cons {v : JText} {vs : List JText} {a t b r : List Char} : IsWs a → IsValue v t → IsWs b → IsElems vs r →
      IsElems (v :: vs) (a ++ t ++ b ++ ',' :: r)
/-- Comma separated members. -/
inductive IsMembers : List (List Char × JText) → List Char → Prop where
  | one {k : List Char} {v : JText} {a kt b c t d : List Char} : IsWs a → IsStr k kt → IsWs b → IsWs c →
      IsValue v t → IsWs d → IsMembers [(k, v)] (a ++ ('"' :: kt ++ ['"']) ++ b ++ ':' :: c ++ t ++ d)
  | cons {k : List Char} {v : JText} {ms : List (List Char × JText)} {a kt b c t d r : List Char} :
      IsWs a → IsStr k kt → IsWs b → IsWs c → IsValue v t → IsWs d → IsMembers ms r →
      IsMembers ((k, v) :: ms) (a ++ ('"' :: kt ++ ['"']) ++ b ++ ':' :: c ++ t ++ d ++ ',' :: r)
end

/-- A JSON document: one value surrounded by white space. -/
def IsDocument (v : JText) (t : List Char) : Prop :=
  ∃ a u b, IsWs a ∧ IsValue v u ∧ IsWs b ∧ t = a ++ u ++ b

end MiniOpt.Spec
