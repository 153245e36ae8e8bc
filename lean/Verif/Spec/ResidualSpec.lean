import Verif.Model.Residual

/-!
# What a residual means (exact arithmetic)

Stated from the user's data only: the indices, the callable's values and its Jacobian.
-/

set_option autoImplicit false

namespace MiniOpt.Spec

open MiniOpt

/-- Every index of the residual is a valid index of a vector of size `n`. -/
def IdxIn {α : Type} (r : Residual α) (n : Nat) : Prop := ∀ l, 0 ≤ r.index l ∧ r.index l < (n : Int)

/-- The residual reads no parameter twice. -/
def Distinct {α : Type} (r : Residual α) : Prop := Function.Injective r.index

/-- The callable returns the same value whether or not a Jacobian is requested. -/
def Consistent {α : Type} (r : Residual α) : Prop := ∀ p, r.valueJ p = r.value p

/-- The callable throws with a Jacobian requested exactly if it throws without. -/
def SameThrows {α : Type} (r : Residual α) : Prop := ∀ p, r.throwsJ p = r.throws p

/-- The callable never throws. -/
def NeverThrows {α : Type} (r : Residual α) : Prop := ∀ p, r.throws p = false ∧ r.throwsJ p = false

/-- The parameters the residual reads from `x`. -/
def readParams {α : Type} (r : Residual α) {n : Nat} (h : IdxIn r n) (x : Fin n → α) : Fin r.P → α :=
  fun l => x ⟨(r.index l).toNat, by have := h l; omega⟩

/-- The Jacobian with respect to all `D` variables: column `j` collects the columns of the residual's
Jacobian that belong to parameter `j`. -/
def fullJac {d P : Nat} (index : Fin P → Int) (J : Fin d → Fin P → ℝ) (D : Nat) : Fin d → Fin D → ℝ :=
  fun k j => ∑ l, if index l = (j.val : Int) then J k l else 0

end MiniOpt.Spec
