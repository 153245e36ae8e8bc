import Verif.Model.ScopedTrace

/-!
# What tracing should record

Without clocks and without counting exceptions in flight.
-/

set_option autoImplicit false

namespace MiniOpt.Spec

open MiniOpt.Trace

/-- `Records p names e`: running `p` while no exception is in flight ends with `e` and records the scopes `names`, in this
order. A scope that is left normally is recorded after the scopes inside it. A scope left by an exception is not recorded,
but those completed inside it before are. Code that runs in a destructor because of an exception records nothing. -/
inductive Records : Prog → List (List Char) → Ending → Prop where
  | skip : Records .skip [] .normal
  | throw : Records .throw [] .thrown
  | seq {p q : Prog} {a b : List (List Char)} {e : Ending} :
      Records p a .normal → Records q b e → Records (.seq p q) (a ++ b) e
  | seqStop {p q : Prog} {a : List (List Char)} {e : Ending} : e ≠ .normal → Records p a e → Records (.seq p q) a e
  | scope {p : Prog} {a : List (List Char)} {name : List Char} :
      Records p a .normal → Records (.scope name p) (a ++ [name]) .normal
  | scopeStop {p : Prog} {a : List (List Char)} {name : List Char} {e : Ending} :
      e ≠ .normal → Records p a e → Records (.scope name p) a e
  | tryOk {p h : Prog} {a : List (List Char)} {e : Ending} : e ≠ .thrown → Records p a e → Records (.tryCatch p h) a e
  | tryCaught {p h : Prog} {a b : List (List Char)} {e : Ending} :
      Records p a .thrown → Records h b e → Records (.tryCatch p h) (a ++ b) e
  | cleanup {p d : Prog} {a b : List (List Char)} :
      Records p a .normal → Records d b .normal → Records (.cleanup p d) (a ++ b) .normal
  | cleanupFails {p d : Prog} {a b : List (List Char)} {e : Ending} : e ≠ .normal →
      Records p a .normal → Records d b e → Records (.cleanup p d) (a ++ b) .terminated
  | unwound {p d : Prog} {a b : List (List Char)} :
      Records p a .thrown → Records d b .normal → Records (.cleanup p d) a .thrown
  | unwoundFails {p d : Prog} {a b : List (List Char)} {e : Ending} : e ≠ .normal →
      Records p a .thrown → Records d b e → Records (.cleanup p d) a .terminated
  | terminated {p d : Prog} {a : List (List Char)} : Records p a .terminated → Records (.cleanup p d) a .terminated

/-- Two intervals, the first of which ends no later than the second: the first lies before the second or inside it. -/
def BeforeOrInside (a b : Int × Int) : Prop := a.2 ≤ b.1 ∨ (b.1 ≤ a.1 ∧ a.2 ≤ b.2)

end MiniOpt.Spec
