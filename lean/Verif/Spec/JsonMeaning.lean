import Verif.Spec.JsonText
import Verif.Model.Serialization

/-!
# What it means for a JSON text to hold a value of the library

`Means fmt j v`: the JSON value `v` holds `j`, doubles being written with `fmt`, members in any order.
-/

set_option autoImplicit false

namespace MiniOpt.Spec

open MiniOpt MiniOpt.Ser

variable {α : Type} [Scalar α]

/-- The value of a member of an object. -/
def member (k : List Char) : List (List Char × JText) → Option JText
  | [] => none
  | (k', v) :: r => if k' = k then some v else member k r

/-- A JSON value that holds `j`. Finite doubles are written with `fmt`, others as `null`; elements of arrays keep their
order; objects have the same members, each once, in any order. -/
inductive Means (fmt : α → List Char) : Json α → JText → Prop where
  | null : Means fmt .null .null
  | bool (b : Bool) : Means fmt (.bool b) (.bool b)
  | int (i : Int) : Means fmt (.int i) (.int i)
  | num {x : α} : Scalar.isFinite x → Means fmt (.num x) (.num (fmt x))
  | nonFinite {x : α} : ¬ Scalar.isFinite x → Means fmt (.num x) .null
  | str (s : String) : Means fmt (.str s) (.str s.toList)
  | arr {l : List (Json α)} {m : List JText} : l.length = m.length →
      (∀ (i : Nat) a b, l[i]? = some a → m[i]? = some b → Means fmt a b) → Means fmt (.arr l) (.arr m)
  | obj {l : List (String × Json α)} {m : List (List Char × JText)} : (l.map Prod.fst).Nodup → (m.map Prod.fst).Nodup →
      (∀ k ∈ m.map Prod.fst, ∃ s ∈ l.map Prod.fst, k = s.toList) → (∀ s ∈ l.map Prod.fst, s.toList ∈ m.map Prod.fst) →
      (∀ (s : String) a b, lookup s l = some a → member s.toList m = some b → Means fmt a b) → Means fmt (.obj l) (.obj m)

/-- A way of writing doubles that loses nothing: finite doubles become JSON numbers with a fraction or exponent, different
ones become different numbers. -/
def Lossless (fmt : α → List Char) : Prop :=
  (∀ x : α, Scalar.isFinite x → IsFrac (fmt x)) ∧
  ∀ x y : α, Scalar.isFinite x → Scalar.isFinite y → fmt x = fmt y → x = y

/-- A value as reading a text gives it: no number is infinite or NaN. -/
def Parsed (j : Json α) : Prop := throughText j = j

end MiniOpt.Spec
