import Verif.Spec.RepresentationSpec
import Mathlib.Algebra.Order.ToIntervalMod
import Mathlib.Data.Real.Archimedean

/-!
# Angles (exact arithmetic)
-/

set_option autoImplicit false

namespace MiniOpt.Spec

open MiniOpt MiniOpt.NLS

variable {n : Nat}

/-- The variables in `s` are brought into `[lo, lo + period)` by adding multiples of the period. -/
noncomputable def wrapAll {period : ℝ} (hp : 0 < period) (lo : ℝ) (s : Fin n → Prop) [DecidablePred s] (x : Fin n → ℝ) : Fin n → ℝ :=
  fun i => if s i then toIcoMod hp lo (x i) else x i

/-- The step followed by wrapping: the retraction `x[i] = ModPi(x[i] + dx[i] * alpha)` of the library's tests. -/
noncomputable def addAndWrap {period : ℝ} (hp : 0 < period) (lo : ℝ) (s : Fin n → Prop) [DecidablePred s]
    (x dx : Fin n → ℝ) (alpha : ℝ) : Fin n → ℝ :=
  wrapAll hp lo s fun i => x i + dx i * alpha

/-- The variables in `s` are angles: adding one period changes no residual (value, Jacobian, exception), and they carry no bounds. -/
structure Angles (p : Problem n ℝ) (period : ℝ) (s : Fin n → Prop) : Prop where
  periodic : ∀ r, r ∈ p.costs ∨ r ∈ p.eqs → ∀ (y : Fin n → ℝ) (i : Fin n), s i →
    NotToldApart r (Function.update y i (y i + period)) y
  unbounded : ∀ c ∈ p.ineq, ∀ i : Fin n, c.var = (i.val : Int) → ¬ s i

end MiniOpt.Spec
