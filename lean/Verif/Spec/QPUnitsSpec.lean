import Verif.Spec.QPSpec

/-!
# A QP in other units (exact arithmetic)

The cost is multiplied by `γ`, variable `i` is measured in units of `d i` (`x i = d i * x' i`), equality row `k` is multiplied
by `e k` and inequality constraint `m` by `t m`.
-/

set_option autoImplicit false

namespace MiniOpt.Spec

open MiniOpt

variable {N M K : Nat}

/-- The units: all of them nonzero, those of the cost and of inequality constraints positive. -/
structure Units (N M K : Nat) where
  γ : ℝ
  d : Fin N → ℝ
  e : Fin K → ℝ
  t : Fin M → ℝ
  γ_pos : 0 < γ
  d_ne : ∀ i, d i ≠ 0
  e_ne : ∀ k, e k ≠ 0
  t_pos : ∀ m, 0 < t m

/-- The problem in the new units. -/
def QPInUnits (u : Units N M K) (p : QP N M K ℝ) : QP N M K ℝ where
  G i j := u.γ * (u.d i * p.G i j * u.d j)
  c i := u.γ * (u.d i * p.c i)
  A k j := u.e k * (p.A k j * u.d j)
  b k := u.e k * p.b k
  con m := ⟨(p.con m).var, u.t m * ((p.con m).a * u.d (p.con m).var), u.t m * (p.con m).b⟩

/-- The same point in the new units: the slacks are values of the inequality constraints; multipliers are cost per
constraint. -/
noncomputable def pointInUnits (u : Units N M K) (v : Blocks N M K ℝ) : Blocks N M K ℝ where
  x i := v.x i / u.d i
  s m := u.t m * v.s m
  y k := u.γ * v.y k / u.e k
  z m := u.γ * v.z m / u.t m

/-- What an iteration reports, in the new units: the same step lengths; barrier parameters are costs. -/
def outputsInUnits (γ : ℝ) (o : IPIterationOutputs ℝ) : IPIterationOutputs ℝ where
  mu := γ * o.mu
  alpha := o.alpha
  alphaProbe := o.alphaProbe
  muAffine := o.muAffine.map fun m => γ * m

/-- The parameters agree up to units and up to when to stop. -/
structure SameMethod (γ : ℝ) (prm prm' : QPParams ℝ) : Prop where
  initialMu : prm'.initialMu = γ * prm.initialMu
  sigma : prm'.sigma = prm.sigma
  strategy : prm'.barrierStrategy = prm.barrierStrategy
  always : prm.decreaseMuOnlyOnSmallError = false
  always' : prm'.decreaseMuOnlyOnSmallError = false
  guess : prm'.initialGuessMethod = prm.initialGuessMethod
  initMu : prm'.initializeMuWithComplementarity = prm.initializeMuWithComplementarity

end MiniOpt.Spec
