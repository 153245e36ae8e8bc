import Verif.Props.EqualityConvergence
import Verif.Props.GlobalExamples

/-!
# C125: when the constraints are smooth
-/

set_option autoImplicit false

namespace MiniOpt.Props

open MiniOpt.Spec MiniOpt.NLS Set

variable {D : Nat}

/-- A component of a constraint along a line is differentiable with the slope its Jacobian predicts. -/
theorem value_line_deriv (env : Env D D ℝ) (hr : env.retraction = none) (hp : WellPosed env.p D)
    (hJ : ∀ r ∈ env.p.costs ++ env.p.eqs, ∀ q, TrueJacobian r q) (x d : Fin D → ℝ) (r : Residual ℝ) (hm : r ∈ env.p.eqs)
    (k : Fin r.dim) (t : ℝ) :
    HasDerivAt (fun s => valueAt r (fun i => x i + s * d i) k) (slopeAt r (fun i => x i + t * d i) d k) t := by
  obtain ⟨hf, -⟩ := C35_default_retraction env hr hp (fun i => x i + t * d i) d fun r hr => hJ r hr _
  have h0 := hf.deriv r (by simp [hm]) k
  have h1 : HasDerivAt (fun s : ℝ => s - t) 1 t := (hasDerivAt_id t).sub_const t
  have h2 := HasDerivAt.comp t (h := fun s : ℝ => s - t)
    (h₂ := fun s => valueAt r (fun i => (x i + t * d i) + d i * s) k) (by simpa using h0) h1
  refine (h2.congr_deriv (by rw [mul_one])).congr_of_eventuallyEq (Filter.Eventually.of_forall fun s => ?_)
  show valueAt r _ k = valueAt r _ k
  congr 1
  funext i
  ring

/-- A function whose slope changes at most at rate `c` lies within `c / 2 t²` of its tangent. -/
theorem tangent_gap (f g : ℝ → ℝ) (c : ℝ) (hf : ∀ s, HasDerivAt f (g s) s)
    (hg : ∀ s, 0 ≤ s → s ≤ 1 → g s - g 0 ≤ c * s) (t : ℝ) (h0 : 0 ≤ t) (h1 : t ≤ 1) : f t - (f 0 + t * g 0) ≤ c / 2 * t ^ 2 := by
  have hd : ∀ s : ℝ, HasDerivAt (fun s => f s - s * g 0 - c / 2 * s ^ 2) (g s - g 0 - c * s) s := by
    intro s
    have e2 : HasDerivAt (fun s : ℝ => s * g 0) (g 0) s := by simpa using (hasDerivAt_id s).mul_const (g 0)
    have e3 : HasDerivAt (fun s : ℝ => c / 2 * s ^ 2) (c * s) s := by
      refine ((hasDerivAt_pow 2 s).const_mul (c / 2)).congr_deriv ?_
      push_cast
      ring
    exact ((hf s).sub e2).sub e3
  have hanti : AntitoneOn (fun s => f s - s * g 0 - c / 2 * s ^ 2) (Icc 0 1) := by
    refine antitoneOn_of_deriv_nonpos (convex_Icc 0 1)
      (fun s _ => (hd s).continuousAt.continuousWithinAt) (fun s _ => (hd s).differentiableAt.differentiableWithinAt) ?_
    intro s hs
    rw [interior_Icc] at hs
    rw [(hd s).deriv]
    have := hg s hs.1.le hs.2.le
    linarith
  have := hanti (left_mem_Icc.mpr zero_le_one) ⟨h0, h1⟩ h0
  norm_num at this
  linarith

/-- **C125** (Lipschitz Jacobians). If the Jacobians are true and, on every line from a point of `S`, the slope of component `k` of
constraint `r` changes at most at rate `c r k ‖d‖²` over the first unit of it - as it does if the gradient of that component is
Lipschitz with constant `c r k` - then the constraints are smooth on `S` with the sum of these constants. -/
theorem C125_lipschitz (env : Env D D ℝ) (hr : env.retraction = none) (hp : WellPosed env.p D)
    (hJ : ∀ r ∈ env.p.costs ++ env.p.eqs, ∀ q, TrueJacobian r q) (S : (Fin D → ℝ) → Prop)
    (c : (r : Residual ℝ) → Fin r.dim → ℝ) (hc : ∀ r k, 0 ≤ c r k)
    (hlip : ∀ r ∈ env.p.eqs, ∀ (k : Fin r.dim) (x : Fin D → ℝ), S x → ∀ (d : Fin D → ℝ) (t : ℝ), 0 ≤ t → t ≤ 1 →
      |slopeAt r (fun i => x i + t * d i) d k - slopeAt r x d k| ≤ c r k * t * ∑ i, d i ^ 2) :
    SmoothEqs env.p S (env.p.eqs.map fun r => ∑ k, c r k).sum := by
  refine ⟨List.sum_nonneg fun v hv => ?_, fun x hx d t h0 h1 => ?_⟩
  · obtain ⟨r, _, rfl⟩ := List.mem_map.mp hv
    exact Finset.sum_nonneg fun k _ => hc r k
  have hz : (fun i => x i + 0 * d i) = x := by funext i; ring
  have hone : ∀ r ∈ env.p.eqs, ∑ k, |valueAt r (fun i => x i + t * d i) k - (valueAt r x k + t * slopeAt r x d k)|
      ≤ (∑ k, c r k) * (t ^ 2 / 2 * ∑ i, d i ^ 2) := by
    intro r hm
    rw [Finset.sum_mul]
    refine Finset.sum_le_sum fun k _ => ?_
    have hd := value_line_deriv env hr hp hJ x d r hm k
    have hu := tangent_gap _ _ (c r k * ∑ i, d i ^ 2) hd (fun s s0 s1 => by
      have := (abs_le.mp (hlip r hm k x hx d s s0 s1)).2
      rw [hz]
      linarith) t h0 h1
    have hl := tangent_gap _ _ (c r k * ∑ i, d i ^ 2) (fun s => (hd s).neg) (fun s s0 s1 => by
      have := (abs_le.mp (hlip r hm k x hx d s s0 s1)).1
      rw [hz]
      linarith) t h0 h1
    simp only [hz, Pi.neg_apply] at hu hl
    rw [abs_le]
    constructor <;> linarith
  have : (env.p.eqs.map fun r => ∑ k, |valueAt r (fun i => x i + t * d i) k - (valueAt r x k + t * slopeAt r x d k)|).sum
      ≤ (env.p.eqs.map fun r => (∑ k, c r k) * (t ^ 2 / 2 * ∑ i, d i ^ 2)).sum := List.sum_le_sum hone
  refine this.trans (le_of_eq ?_)
  rw [List.sum_map_mul_right]
  ring

end MiniOpt.Props
