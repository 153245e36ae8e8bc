import Verif.Props.LinearLS
import Verif.Props.NLSUnconstrained
import Mathlib.Analysis.InnerProductSpace.PiL2

/-!
# Geometry of a Gauss-Newton step near a point with zero residual
-/

set_option autoImplicit false

namespace MiniOpt.GN

open scoped RealInnerProductSpace

section abstract_step

variable {E F : Type} [NormedAddCommGroup E] [NormedSpace ℝ E] [NormedAddCommGroup F] [InnerProductSpace ℝ F]

/-- `⟪u - e, u⟫ = 0` puts `u` and `u - e` in the ball with diameter `e`. -/
theorem thales {u e : F} (h : ⟪u - e, u⟫ = 0) : ‖u‖ ≤ ‖e‖ ∧ ‖u - e‖ ≤ ‖e‖ := by
  have h1 : ‖u‖ ^ 2 + ‖u - e‖ ^ 2 = ‖e‖ ^ 2 := by
    have e1 : e = u - (u - e) := by abel
    have := norm_sub_sq_real u (u - e)
    rw [← e1, real_inner_comm, h] at this
    linarith
  constructor
  · exact abs_le_of_sq_le_sq' (by nlinarith [sq_nonneg ‖u - e‖]) (norm_nonneg _) |>.2
  · exact abs_le_of_sq_le_sq' (by nlinarith [sq_nonneg ‖u‖]) (norm_nonneg _) |>.2

/-- What a full Gauss-Newton step does when the model error is small: `d` is the distance vector to the solution, `r` the
residual, `r'` the residual after the step. -/
theorem step {J : E →ₗ[ℝ] F} {r r' : F} {d dx : E} {σ κ c : ℝ} (hσ : 0 < σ) (hκ : κ ≤ 1 / 4) (hc : 0 ≤ c)
    (hcd : c * ‖d‖ ≤ σ * κ) (hnormal : ∀ h, ⟪r + J dx, J h⟫ = 0) (hrank : ∀ h, σ * ‖h‖ ≤ ‖J h‖)
    (he : ‖J d - r‖ ≤ c * ‖d‖ ^ 2) (he' : ‖r' - r - J dx‖ ≤ c * ‖dx‖ ^ 2) :
    σ * ‖d + dx‖ ≤ c * ‖d‖ ^ 2 ∧ ‖d + dx‖ ≤ κ * ‖d‖ ∧ ‖J dx‖ ≤ ‖r‖ ∧ ‖r'‖ ^ 2 ≤ 3 / 4 * ‖r‖ ^ 2 ∧
      ‖r'‖ ≤ 41 / 16 * c * ‖d‖ ^ 2 ∧ 3 / 4 * σ * ‖d‖ ≤ ‖r‖ ∧ 3 / 4 * σ * ‖d‖ ≤ ‖J dx‖ := by
  have hd0 := norm_nonneg d
  have hbound : c * ‖d‖ ^ 2 ≤ σ * κ * ‖d‖ := by nlinarith
  have hv : ⟪J (d + dx) - (J d - r), J (d + dx)⟫ = 0 := by
    have : J (d + dx) - (J d - r) = r + J dx := by rw [map_add]; abel
    rw [this]; exact hnormal _
  obtain ⟨t1, t2⟩ := thales hv
  have h1 : σ * ‖d + dx‖ ≤ c * ‖d‖ ^ 2 := le_trans (hrank _) (le_trans t1 he)
  have h2 : ‖d + dx‖ ≤ κ * ‖d‖ := by
    have : σ * ‖d + dx‖ ≤ σ * (κ * ‖d‖) := by linarith
    exact le_of_mul_le_mul_left this hσ
  have h3 : ‖J dx‖ ≤ ‖r‖ := by
    have : ⟪J dx - (-r), J dx⟫ = 0 := by rw [sub_neg_eq_add, add_comm]; exact hnormal _
    have := (thales this).1
    rwa [norm_neg] at this
  have h4 : σ * ‖d‖ * (1 - κ) ≤ ‖r‖ := by
    have a1 := hrank d
    have a2 : ‖J d‖ ≤ ‖r‖ + ‖J d - r‖ := by
      have : J d = r + (J d - r) := by abel
      calc ‖J d‖ = ‖r + (J d - r)‖ := by rw [← this]
        _ ≤ _ := norm_add_le _ _
    nlinarith
  have hdx : ‖dx‖ ≤ 5 / 4 * ‖d‖ := by
    have : dx = (d + dx) - d := by abel
    have a := norm_sub_le (d + dx) d
    rw [← this] at a
    nlinarith
  have hdx' : 3 / 4 * ‖d‖ ≤ ‖dx‖ := by
    have : d = (d + dx) - dx := by abel
    have a := norm_sub_le (d + dx) dx
    rw [← this] at a
    nlinarith
  have hsd : 0 ≤ σ * ‖d‖ := mul_nonneg hσ.le hd0
  have h5 : ‖r'‖ ≤ 41 / 16 * c * ‖d‖ ^ 2 := by
    have a1 : r' = (r' - r - J dx) + (J (d + dx) - (J d - r)) := by rw [map_add]; abel
    have a2 : ‖r'‖ ≤ ‖r' - r - J dx‖ + ‖J (d + dx) - (J d - r)‖ := by
      calc ‖r'‖ = ‖(r' - r - J dx) + (J (d + dx) - (J d - r))‖ := by rw [← a1]
        _ ≤ _ := norm_add_le _ _
    have a3 : ‖dx‖ ^ 2 ≤ 25 / 16 * ‖d‖ ^ 2 := by nlinarith [norm_nonneg dx]
    nlinarith
  have h6 : 3 / 4 * σ * ‖d‖ ≤ ‖r‖ := by nlinarith
  refine ⟨h1, h2, h3, ?_, h5, h6, ?_⟩
  · have a1 : ‖r'‖ ≤ 41 / 64 * (σ * ‖d‖) := by nlinarith
    have a2 := norm_nonneg r'
    have a3 : ‖r'‖ ^ 2 ≤ (41 / 64 * (σ * ‖d‖)) ^ 2 := by nlinarith
    have a4 : (3 / 4 * σ * ‖d‖) ^ 2 ≤ ‖r‖ ^ 2 := by
      have : 0 ≤ 3 / 4 * σ * ‖d‖ := by linarith
      nlinarith
    nlinarith [sq_nonneg (σ * ‖d‖)]
  · have := hrank dx
    nlinarith

end abstract_step

section stack

open MiniOpt MiniOpt.Spec MiniOpt.NLS MiniOpt.Props

variable {D : Nat}

/-- Components of all costs. -/
abbrev Comp (p : Problem D ℝ) : Type := Σ i : Fin p.costs.length, Fin (p.costs.get i).dim

/-- A vector with a component per cost component. -/
noncomputable def stack (p : Problem D ℝ) (f : (r : Residual ℝ) → Fin r.dim → ℝ) : EuclideanSpace ℝ (Comp p) :=
  WithLp.toLp 2 fun s => f (p.costs.get s.1) s.2

theorem stack_norm (p : Problem D ℝ) (f : (r : Residual ℝ) → Fin r.dim → ℝ) :
    ‖stack p f‖ ^ 2 = (p.costs.map fun r => ∑ k, f r k ^ 2).sum := by
  rw [EuclideanSpace.real_norm_sq_eq, Fintype.sum_sigma]
  simp only [stack]
  rw [← Fin.sum_univ_fun_getElem p.costs (fun r => ∑ k, f r k ^ 2)]
  rfl

/-- Vectors of variables. -/
noncomputable def vec (d : Fin D → ℝ) : EuclideanSpace ℝ (Fin D) := WithLp.toLp 2 d

theorem vec_norm (d : Fin D → ℝ) : ‖vec d‖ ^ 2 = ∑ i, d i ^ 2 := by
  rw [EuclideanSpace.real_norm_sq_eq]; rfl

/-- The stacked Jacobian of the costs. -/
noncomputable def jac (p : Problem D ℝ) (x : Fin D → ℝ) : EuclideanSpace ℝ (Fin D) →ₗ[ℝ] EuclideanSpace ℝ (Comp p) where
  toFun d := stack p fun r k => slopeAt r x d.ofLp k
  map_add' a b := by
    ext s
    simp only [stack, slopeAt, PiLp.add_apply, mul_add, Finset.sum_add_distrib]
  map_smul' c a := by
    ext s
    simp only [stack, slopeAt, PiLp.smul_apply, RingHom.id_apply, smul_eq_mul, Finset.mul_sum]
    exact Finset.sum_congr rfl fun j _ => by ring

theorem jac_vec (p : Problem D ℝ) (x d : Fin D → ℝ) : jac p x (vec d) = stack p fun r k => slopeAt r x d k := rfl

theorem stack_add (p : Problem D ℝ) (f g : (r : Residual ℝ) → Fin r.dim → ℝ) :
    stack p f + stack p g = stack p fun r k => f r k + g r k := rfl

theorem stack_sub (p : Problem D ℝ) (f g : (r : Residual ℝ) → Fin r.dim → ℝ) :
    stack p f - stack p g = stack p fun r k => f r k - g r k := rfl

/-- The cost is half the squared norm of the stacked residual. -/
theorem cost_norm (p : Problem D ℝ) (x : Fin D → ℝ) : costAt p x = 1 / 2 * ‖stack p fun r => valueAt r x‖ ^ 2 := by
  rw [stack_norm]
  unfold costAt
  have : ∀ (l : List (Residual ℝ)) (a : ℝ), l.foldl (fun f r => f + Residual.half * squaredNorm (valueAt r x)) a
      = a + 1 / 2 * (l.map fun r => ∑ k, valueAt r x k ^ 2).sum := by
    intro l
    induction l with
    | nil => intro a; simp
    | cons r rs ih =>
      intro a
      rw [List.foldl_cons, ih, List.map_cons, List.sum_cons]
      simp only [Residual.half, squaredNorm, dot, real_sum, real_lit, List.sum_ofFn]
      push_cast
      rw [mul_add, add_assoc]
      congr 2
      congr 1
      exact Finset.sum_congr rfl fun k _ => by ring
  rw [this, zero_add]

/-- Normal equations from minimality. -/
theorem normal {E F : Type} [NormedAddCommGroup E] [NormedSpace ℝ E] [NormedAddCommGroup F] [InnerProductSpace ℝ F]
    {J : E →ₗ[ℝ] F} {r : F} {dx : E} (hmin : ∀ h, ‖r + J dx‖ ^ 2 ≤ ‖r + J h‖ ^ 2) (h : E) : ⟪r + J dx, J h⟫ = 0 := by
  have key : ∀ t : ℝ, 0 ≤ 2 * t * ⟪r + J dx, J h⟫ + t ^ 2 * ‖J h‖ ^ 2 := by
    intro t
    have := hmin (dx + t • h)
    rw [map_add, map_smul, ← add_assoc, norm_add_sq_real (r + J dx) (t • J h), inner_smul_right, norm_smul, mul_pow, Real.norm_eq_abs,
      sq_abs] at this
    linarith
  set u := ⟪r + J dx, J h⟫
  set v := ‖J h‖ ^ 2
  have hv : 0 ≤ v := sq_nonneg _
  by_contra hne
  have := key (- u / (v + 1))
  have hpos : 0 < v + 1 := by linarith
  have e : 2 * (-u / (v + 1)) * u + (-u / (v + 1)) ^ 2 * v = - (u ^ 2 * (v + 2)) / (v + 1) ^ 2 := by
    field_simp; ring
  rw [e] at this
  have hu : 0 < u ^ 2 := by positivity
  have : 0 < u ^ 2 * (v + 2) / (v + 1) ^ 2 := by positivity
  rw [neg_div] at *
  linarith

end stack

end MiniOpt.GN
