import Verif.Model.QP

/-!
# `BuildFullSystem`  (`/repo/source/qp.cc:584-655`)

The unreduced Newton matrix and right-hand side the unit tests compare against.
-/

set_option autoImplicit false

namespace MiniOpt.IP

variable {α : Type} [Scalar α] {N M K : Nat}

/-- Row/column index of the full system: blocks `x`, `s`, `y`, `z` in that order. -/
inductive Full (N M K : Nat) where
  | x (i : Fin N)
  | s (i : Fin M)
  | y (i : Fin K)
  | z (i : Fin M)

/-- The sparse `A_i` built row by row (`qp.cc:618-628`). -/
def denseAi (p : QP N M K α) : Fin M → Fin N → α :=
  fun i j => if j = (p.con i).var then (p.con i).a else 0

/-- `H` of `BuildFullSystem` (`qp.cc:602-637`). -/
def fullH (p : QP N M K α) (v : Blocks N M K α) : Full N M K → Full N M K → α
  | .x i, .x j => symLower p.G i j
  | .x i, .y k => p.A k i
  | .y k, .x j => p.A k j
  | .x i, .z m => denseAi p m i
  | .z m, .x j => denseAi p m j
  | .z m, .s l => if m = l then -1 else 0
  | .s m, .z l => if m = l then -1 else 0
  | .s m, .s l => if m = l then v.z m / v.s m else 0
  | _, _ => 0

/-- `r` of `BuildFullSystem` (`qp.cc:639-654`). -/
def fullR (p : QP N M K α) (v : Blocks N M K α) : Blocks N M K α where
  x i :=
    let r0 := matVec (symLower p.G) v.x i + p.c i
    let r1 := if 0 < K then r0 - matTVec p.A v.y i else r0
    if 0 < M then r1 - matTVec (denseAi p) v.z i else r1
  s := v.z
  y k := matVec p.A v.x k + p.b k
  z m := matVec (denseAi p) v.x m + (p.con m).b - v.s m

end MiniOpt.IP
