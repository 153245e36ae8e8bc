import Verif.Model.F64

/-! # The rational number a double stands for -/

set_option autoImplicit false

namespace MiniOpt

/-- The value of a finite double; 0 for infinities and NaN (used for finite doubles only). -/
def Dbl.toRat {L : Libm} (x : Dbl L) : ℚ :=
  match (x : F64) with
  | .fin s m => F64.value s m
  | _ => 0

end MiniOpt
