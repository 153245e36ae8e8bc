import Verif.Spec.SmoothSpec
import Verif.Spec.BasinSpec
import Verif.Spec.DampedSpec
import Verif.Props.LinearLS
import Verif.Props.QuadraticConvergence
import Verif.Props.GlobalConvergence
import Mathlib.Analysis.InnerProductSpace.Adjoint

/-!
# C97: linear least squares with damping (exact arithmetic)
-/

set_option autoImplicit false

namespace MiniOpt.GN

section damped

variable {E F : Type} [NormedAddCommGroup E] [InnerProductSpace ℝ E] [FiniteDimensional ℝ E]
  [NormedAddCommGroup F] [InnerProductSpace ℝ F] [FiniteDimensional ℝ F]

local notation "⟪" x ", " y "⟫" => inner ℝ x y

/-- Normal equations of the damped problem. -/
theorem normal_damped {J : E →ₗ[ℝ] F} {r : F} {dx : E} {lam : ℝ}
    (hmin : ∀ h, ‖r + J dx‖ ^ 2 + lam * ‖dx‖ ^ 2 ≤ ‖r + J h‖ ^ 2 + lam * ‖h‖ ^ 2) (h : E) :
    ⟪r + J dx, J h⟫ + lam * ⟪dx, h⟫ = 0 := by
  have key : ∀ t : ℝ, 0 ≤ 2 * t * (⟪r + J dx, J h⟫ + lam * ⟪dx, h⟫) + t ^ 2 * (‖J h‖ ^ 2 + lam * ‖h‖ ^ 2) := by
    intro t
    have := hmin (dx + t • h)
    rw [map_add, map_smul, ← add_assoc, norm_add_sq_real (r + J dx) (t • J h), norm_add_sq_real dx (t • h),
      inner_smul_right, inner_smul_right, norm_smul, norm_smul, mul_pow, mul_pow, Real.norm_eq_abs, sq_abs] at this
    linarith
  set u := ⟪r + J dx, J h⟫ + lam * ⟪dx, h⟫
  set v := ‖J h‖ ^ 2 + lam * ‖h‖ ^ 2
  by_contra hne
  have hv : 0 < |v| + 1 := by positivity
  have := key (- u / (|v| + 1))
  have e : 2 * (-u / (|v| + 1)) * u + (-u / (|v| + 1)) ^ 2 * v = (u ^ 2 / (|v| + 1) ^ 2) * (v - 2 * (|v| + 1)) := by
    field_simp; ring
  rw [e] at this
  have hu : 0 < u ^ 2 / (|v| + 1) ^ 2 := by positivity
  have h1 : v - 2 * (|v| + 1) < 0 := by have := le_abs_self v; have := abs_nonneg v; linarith
  have := mul_neg_of_pos_of_neg hu h1
  linarith

/-- One damped step reduces the distance to the solution, and the distance of the residual to the optimal one. -/
theorem damped_contracts {J : E →ₗ[ℝ] F} {e dx : E} {m lam : ℝ} (hm : 0 < m) (hl : 0 ≤ lam)
    (hJ : ∀ h, m * ‖h‖ ^ 2 ≤ ‖J h‖ ^ 2) (hn : ∀ h, ⟪J (e + dx), J h⟫ + lam * ⟪dx, h⟫ = 0) :
    (m + lam) * ‖e + dx‖ ≤ lam * ‖e‖ ∧ (m + lam) * ‖J (e + dx)‖ ≤ lam * ‖J e‖ := by
  set w := e + dx with hw
  have hn' : ∀ h, ⟪J w, J h⟫ + lam * ⟪w, h⟫ = lam * ⟪e, h⟫ := by
    intro h
    have h1 := hn h
    have h2 : ⟪w, h⟫ = ⟪e, h⟫ + ⟪dx, h⟫ := by rw [hw, inner_add_left]
    rw [h2]; linarith
  constructor
  · have h1 := hn' w
    rw [real_inner_self_eq_norm_sq, real_inner_self_eq_norm_sq] at h1
    have h2 := real_inner_le_norm e w
    have h3 := hJ w
    have h4 := mul_le_mul_of_nonneg_left h2 hl
    by_cases h0 : ‖w‖ = 0
    · rw [h0, mul_zero]; positivity
    · have hpos : 0 < ‖w‖ := lt_of_le_of_ne (norm_nonneg _) (Ne.symm h0)
      have h5 : ((m + lam) * ‖w‖) * ‖w‖ ≤ (lam * ‖e‖) * ‖w‖ := by nlinarith
      exact le_of_mul_le_mul_right h5 hpos
  · set H := LinearMap.adjoint J (J w) with hH
    have hin : ∀ u, ⟪u, H⟫ = ⟪J u, J w⟫ := fun u => by rw [hH, LinearMap.adjoint_inner_right]
    have h1 := hn' H
    have h1' : ⟪J w, J H⟫ = ‖H‖ ^ 2 := by
      rw [real_inner_comm, ← hin H, real_inner_self_eq_norm_sq]
    rw [h1', hin, hin, real_inner_self_eq_norm_sq] at h1
    have h2 := mul_le_mul_of_nonneg_left (real_inner_le_norm (J e) (J w)) hl
    have h3 : ‖J w‖ ^ 2 ≤ ‖w‖ * ‖H‖ := by
      have := real_inner_le_norm w H
      rwa [hin, real_inner_self_eq_norm_sq] at this
    have h4 := hJ w
    by_cases h0 : ‖J w‖ = 0
    · rw [h0, mul_zero]; positivity
    · have hpos : 0 < ‖J w‖ := lt_of_le_of_ne (norm_nonneg _) (Ne.symm h0)
      have h5 : m * ‖J w‖ ^ 2 ≤ ‖H‖ ^ 2 := by
        have a1 : (‖J w‖ ^ 2) ^ 2 ≤ (‖w‖ * ‖H‖) ^ 2 := pow_le_pow_left₀ (sq_nonneg _) h3 2
        have a2 : m * (‖w‖ * ‖H‖) ^ 2 ≤ ‖J w‖ ^ 2 * ‖H‖ ^ 2 := by
          have := mul_le_mul_of_nonneg_right h4 (sq_nonneg ‖H‖)
          nlinarith
        have a3 : ‖J w‖ ^ 2 * (m * ‖J w‖ ^ 2) ≤ ‖J w‖ ^ 2 * ‖H‖ ^ 2 := by
          have := mul_le_mul_of_nonneg_left a1 hm.le
          nlinarith
        exact le_of_mul_le_mul_left a3 (by positivity)
      have h6 : ((m + lam) * ‖J w‖) * ‖J w‖ ≤ (lam * ‖J e‖) * ‖J w‖ := by nlinarith
      exact le_of_mul_le_mul_right h6 hpos

/-- A least squares problem with injective `J` has a solution. -/
theorem exists_normal {J : E →ₗ[ℝ] F} {m : ℝ} (hm : 0 < m) (hJ : ∀ h, m * ‖h‖ ^ 2 ≤ ‖J h‖ ^ 2) (r : F) :
    ∃ dx : E, ∀ h, ⟪r + J dx, J h⟫ = 0 := by
  have hinj : Function.Injective (LinearMap.adjoint J ∘ₗ J) := by
    rw [← LinearMap.ker_eq_bot, LinearMap.ker_eq_bot']
    intro h hh
    have h1 : ⟪h, (LinearMap.adjoint J ∘ₗ J) h⟫ = ‖J h‖ ^ 2 := by
      rw [LinearMap.comp_apply, LinearMap.adjoint_inner_right, real_inner_self_eq_norm_sq]
    rw [hh, inner_zero_right] at h1
    have h2 := hJ h
    have h3 : ‖h‖ ^ 2 ≤ 0 := by
      by_contra hc
      have := mul_pos hm (not_le.mp hc)
      linarith
    have h4 : ‖h‖ = 0 := pow_eq_zero_iff two_ne_zero |>.mp (le_antisymm h3 (sq_nonneg _))
    exact norm_eq_zero.mp h4
  obtain ⟨dx, hdx⟩ := LinearMap.injective_iff_surjective.mp hinj (- LinearMap.adjoint J r)
  refine ⟨dx, fun h => ?_⟩
  have h1 : ⟪LinearMap.adjoint J (r + J dx), h⟫ = 0 := by
    have : LinearMap.adjoint J (r + J dx) = 0 := by
      rw [map_add]
      have e : LinearMap.adjoint J (J dx) = - LinearMap.adjoint J r := hdx
      rw [e]; abel
    rw [this, inner_zero_left]
  rwa [LinearMap.adjoint_inner_left] at h1

end damped

end MiniOpt.GN

namespace MiniOpt.Props

open MiniOpt.Spec MiniOpt.NLS MiniOpt.GN

variable {D : Nat}

/-- Affine costs are the same linear map plus a constant everywhere. -/
theorem affine_stack {p : Problem D ℝ} (haff : AffineCosts p) (x y : Fin D → ℝ) :
    stack p (fun r => valueAt r y) = stack p (fun r => valueAt r x) + jac p x (vec fun i => y i - x i) := by
  rw [jac_vec, stack_add]
  ext s
  have h := haff (p.costs.get s.1) (List.get_mem _ _) x (fun i => y i - x i) s.2
  have e : (fun i => x i + (y i - x i)) = y := by funext i; ring
  rw [e] at h
  exact h

theorem affine_jac {p : Problem D ℝ} (haff : AffineCosts p) (x y : Fin D → ℝ) (d : EuclideanSpace ℝ (Fin D)) :
    jac p x d = jac p y d := by
  have h1 := affine_stack haff x (fun i => y i + d.ofLp i)
  have h2 := affine_stack haff y (fun i => y i + d.ofLp i)
  have h3 := affine_stack haff x y
  have e1 : (vec fun i => y i + d.ofLp i - x i) = (vec fun i => y i - x i) + d := by
    ext i; simp [vec]; ring
  have e2 : (vec fun i => y i + d.ofLp i - y i) = d := by ext i; simp [vec]
  rw [e1, map_add] at h1
  rw [e2, h3] at h2
  rw [h2] at h1
  have : jac p x (vec fun i => y i - x i) + jac p y d = jac p x (vec fun i => y i - x i) + jac p x d := by
    have := h1
    rw [add_assoc] at this
    exact add_left_cancel this
  exact (add_left_cancel this).symm

theorem curved_jac {p : Problem D ℝ} {m : ℝ} (hc : Curved p (fun _ => True) 0 m) (x : Fin D → ℝ)
    (d : EuclideanSpace ℝ (Fin D)) : m * ‖d‖ ^ 2 ≤ ‖jac p x d‖ ^ 2 := by
  have h := hc.lower x trivial d.ofLp
  unfold curvature at h
  rw [max_self, zero_mul, add_zero, ← stack_norm p (fun r => slopeAt r x d.ofLp), ← vec_norm] at h
  exact h

/-- The unique minimiser of an affine least squares problem: what the costs there say about all points. -/
theorem affine_best {p : Problem D ℝ} (haff : AffineCosts p) {best : Fin D → ℝ} (hbest : ∀ y : Fin D → ℝ, costAt p best ≤ costAt p y)
    (x : Fin D → ℝ) :
    (∀ h, inner ℝ (stack p fun r => valueAt r best) (jac p x h) = 0) ∧
    costAt p x = costAt p best + 1 / 2 * ‖jac p x (vec fun i => x i - best i)‖ ^ 2 := by
  have horth : ∀ h, inner ℝ (stack p fun r => valueAt r best) (jac p best h) = 0 := by
    intro h
    have := normal (J := jac p best) (r := stack p fun r => valueAt r best) (dx := 0) (fun w => by
      have h1 := hbest (fun i => best i + w.ofLp i)
      rw [cost_norm, cost_norm, affine_stack haff best (fun i => best i + w.ofLp i)] at h1
      have e : (vec fun i => best i + w.ofLp i - best i) = w := by ext i; simp [vec]
      rw [e] at h1
      rw [map_zero, add_zero]
      linarith) h
    rwa [map_zero, add_zero] at this
  refine ⟨fun h => by rw [affine_jac haff x best]; exact horth h, ?_⟩
  rw [cost_norm p x, cost_norm p best, affine_stack haff best x, norm_add_sq_real, horth, affine_jac haff best x]
  ring

/-- A solution exists and is unique. -/
theorem affine_exists {p : Problem D ℝ} (haff : AffineCosts p) {m : ℝ} (hc : Curved p (fun _ => True) 0 m) :
    ∃ best : Fin D → ℝ, ∀ y, y ≠ best → costAt p best < costAt p y := by
  obtain ⟨dx, hdx⟩ := exists_normal hc.pos (curved_jac hc 0) (stack p fun r => valueAt r (0 : Fin D → ℝ))
  refine ⟨dx.ofLp, fun y hy => ?_⟩
  have e0 : stack p (fun r => valueAt r dx.ofLp) = stack p (fun r => valueAt r (0 : Fin D → ℝ)) + jac p 0 dx := by
    rw [affine_stack haff 0 dx.ofLp]
    congr 2
    ext i; simp [vec]
  rw [cost_norm, cost_norm, affine_stack haff dx.ofLp y, norm_add_sq_real, affine_jac haff dx.ofLp 0, e0, hdx]
  have h1 := curved_jac hc 0 (vec fun i => y i - dx.ofLp i)
  have h2 : 0 < ‖vec fun i => y i - dx.ofLp i‖ ^ 2 := by
    rw [vec_norm]
    obtain ⟨i, hi⟩ := Function.ne_iff.mp hy
    have hpos : 0 < (y i - dx.ofLp i) ^ 2 := by
      have : y i - dx.ofLp i ≠ 0 := sub_ne_zero.mpr hi
      positivity
    exact lt_of_lt_of_le hpos (Finset.single_le_sum (f := fun i => (y i - dx.ofLp i) ^ 2) (fun j _ => sq_nonneg _)
      (Finset.mem_univ i))
  have := mul_pos hc.pos h2
  linarith

/-- **C97** (one iteration). Linear least squares, no constraints, `JᵀJ` at least `m`: whatever the damping, every iteration
makes one trial step, the full one. If it is accepted, the distance to the minimiser shrinks by the factor `lam / (m + lam)`, and
the distance of the cost from its minimum by the square of it. Otherwise the cost is within `tol (m + lam) / (2 m)` of its
minimum. -/
theorem C97_iteration (env : Env D D ℝ) (hE : LDLTContract env.E) (hr : env.retraction = none) (hp : WellPosed env.p D)
    (haff : AffineCosts env.p) (hi : env.p.ineq = []) (he : env.p.eqs = []) (m : ℝ)
    (hc : Curved env.p (fun _ => True) 0 m) (best : Fin D → ℝ) (hbest : ∀ y : Fin D → ℝ, costAt env.p best ≤ costAt env.p y)
    (prm : NLSParams ℝ) (x0 : Fin D → ℝ) (o o' : env.Obj) (out : NLSOutputs ℝ) (calls : List (NLSIteration ℝ))
    (h : solve env prm x0 o = .ok (o', out, calls)) (k : Nat) (it : NLSIteration ℝ) (hit : out.iterations[k]? = some it)
    (a b : env.Obj) (ha : After env prm x0 o k a) (hb : After env prm x0 o (k + 1) b) :
    (∃ st, it.lineSearchSteps = [st] ∧ st.alpha = 1) ∧
    ((it.stepResult = .success ∧
        dist2 b.vars best ≤ dampedRate m (max it.lambda 0) * dist2 a.vars best ∧
        costAt env.p b.vars - costAt env.p best
          ≤ dampedRate m (max it.lambda 0) ^ 2 * (costAt env.p a.vars - costAt env.p best)) ∨
      (it.stepResult = .firstOrderSatisfied ∧ b.vars = a.vars ∧
        it.directionalDerivatives.lInfinity < prm.absoluteFirstDerivativeTol ∧
        costAt env.p a.vars - costAt env.p best
          ≤ prm.absoluteFirstDerivativeTol * (m + max it.lambda 0) / (2 * m))) := by
  have hl : 0 ≤ max it.lambda 0 := le_max_right _ _
  have hml : 0 < m + max it.lambda 0 := by have := hc.pos; linarith
  have hcv : ∀ d, m * ∑ i, d i ^ 2 ≤ curvature env.p a.vars it.lambda d := by
    intro d
    have h1 := hc.lower a.vars trivial d
    unfold curvature at h1 ⊢
    rw [max_self, zero_mul, add_zero] at h1
    have := mul_nonneg hl (Finset.sum_nonneg fun i (_ : i ∈ Finset.univ) => sq_nonneg (d i))
    linarith
  have hpd := damped_or_injective hc.pos hcv
  obtain ⟨hmin, hder, -, -, -⟩ := C67_levenberg_marquardt env hE hp hi he prm x0 o o' out calls h k it hit a b ha hb hpd
  set lam := max it.lambda 0 with hlam
  set J := jac env.p a.vars with hJ
  set rb := stack env.p (fun r => valueAt r best) with hrb
  set e := vec (fun i => a.vars i - best i) with he'
  set dx := vec b.dx with hdx
  obtain ⟨horth, hcost⟩ := affine_best haff hbest a.vars
  rw [← hJ, ← he'] at hcost
  have hra : stack env.p (fun r => valueAt r a.vars) = rb + J e := by
    rw [affine_stack haff best a.vars, affine_jac haff best a.vars]
  have hmodel : ∀ u : Fin D → ℝ, dampedModel env.p a.vars it.lambda u
      = 1 / 2 * (‖rb + J e + J (vec u)‖ ^ 2 + lam * ‖vec u‖ ^ 2) := by
    intro u
    rw [← hra, hJ, jac_vec, stack_add, stack_norm, vec_norm]
    unfold dampedModel
    rw [← hlam, List.sum_map_mul_left]
    have : (env.p.costs.map fun r => ∑ k, linAt r a.vars u k ^ 2)
        = (env.p.costs.map fun r => ∑ k, (valueAt r a.vars k + slopeAt r a.vars u k) ^ 2) := rfl
    rw [this]; ring
  have hnormal : ∀ w, inner ℝ (J (e + dx)) (J w) + lam * inner ℝ dx w = 0 := by
    intro w
    have h1 := normal_damped (J := J) (r := rb + J e) (dx := dx) (lam := lam) (fun w => by
      have ew : w = vec w.ofLp := rfl
      by_cases hw : w.ofLp = b.dx
      · rw [ew, hw]
      · have := hmin w.ofLp hw
        rw [hmodel, hmodel, ← ew] at this
        linarith) w
    rw [add_assoc, ← map_add, inner_add_left, horth w, zero_add] at h1
    exact h1
  obtain ⟨hc1, hc2⟩ := damped_contracts hc.pos hl (curved_jac hc a.vars) hnormal
  have hdF : it.directionalDerivatives.dF = - (‖J dx‖ ^ 2 + lam * ‖dx‖ ^ 2) := by
    have := hder 0
    rw [← stack_norm env.p (fun r => slopeAt r a.vars b.dx), ← jac_vec, ← vec_norm] at this
    simpa [DirectionalDerivatives.total] using this
  have hnew : costAt env.p (fun i => a.vars i + b.dx i) = costAt env.p best + 1 / 2 * ‖J (e + dx)‖ ^ 2 := by
    rw [(affine_best haff hbest (fun i => a.vars i + b.dx i)).2, affine_jac haff _ a.vars]
    have ee : (vec fun i => a.vars i + b.dx i - best i) = e + dx := by
      ext i; simp [vec, he', hdx]; ring
    rw [ee]
  have hsum : ‖J (e + dx)‖ ^ 2 = ‖J e‖ ^ 2 - ‖J dx‖ ^ 2 - 2 * lam * ‖dx‖ ^ 2 := by
    have h1 := hnormal dx
    rw [real_inner_self_eq_norm_sq] at h1
    rw [map_add] at h1 ⊢
    rw [inner_add_left, real_inner_self_eq_norm_sq] at h1
    rw [norm_add_sq_real]
    linarith
  have hd0 : 0 ≤ lam * ‖dx‖ ^ 2 := by positivity
  have hj0 : 0 ≤ ‖J dx‖ ^ 2 := by positivity
  obtain ⟨⟨st, hst, hal, -⟩, -, hcase⟩ := full_step env hr hp he prm x0 o o' out calls h k it hit a b ha hb
    (by rw [hdF]; linarith) (by rw [hnew, hcost, hdF, hsum]; linarith)
  refine ⟨⟨st, hst, hal⟩, ?_⟩
  rcases hcase with ⟨hs, hbv⟩ | ⟨hs, hbv, hlt⟩
  · left
    refine ⟨hs, ?_, ?_⟩
    · have e1 : dist2 b.vars best = ‖e + dx‖ := by
        rw [hbv, dist2_vec]
        congr 1
        ext i; simp [vec, he', hdx]; ring
      have e2 : dist2 a.vars best = ‖e‖ := dist2_vec _ _
      rw [e1, e2, dampedRate, div_mul_eq_mul_div, le_div_iff₀ hml]
      linarith
    · rw [hbv, hnew, hcost, dampedRate, div_pow, div_mul_eq_mul_div (lam ^ 2) ((m + lam) ^ 2), le_div_iff₀ (by positivity)]
      have := pow_le_pow_left₀ (by positivity) hc2 2
      rw [mul_pow, mul_pow] at this
      linarith
  · right
    have hfs := (free_step env hE hr hp hi he prm x0 o o' out calls h k it hit a b ha hb hpd)
    refine ⟨hs, hbv, by rw [hfs.linf, ← hfs.dF]; exact hlt, ?_⟩
    rw [hdF, abs_neg, abs_of_nonneg (by linarith)] at hlt
    have h1 := hnormal e
    have hmp := hc.pos
    -- Cauchy-Schwarz for the damped inner product
    have hg := hfs.gradient (fun i => a.vars i - best i)
    have hslope : costSlope env.p a.vars (fun i => a.vars i - best i) = ‖J e‖ ^ 2 := by
      have h2 : costSlope env.p a.vars (fun i => a.vars i - best i)
          = inner ℝ (stack env.p fun r => valueAt r a.vars) (J e) := by
        unfold costSlope
        rw [hJ, he', jac_vec, PiLp.inner_apply, Fintype.sum_sigma]
        rw [← Fin.sum_univ_fun_getElem env.p.costs]
        refine Finset.sum_congr rfl fun i _ => Finset.sum_congr rfl fun k _ => ?_
        simp [stack, mul_comm]
      rw [h2, hra, inner_add_left, horth, real_inner_self_eq_norm_sq, zero_add]
    have hce : curvature env.p a.vars it.lambda (fun i => a.vars i - best i) = ‖J e‖ ^ 2 + lam * ‖e‖ ^ 2 := by
      unfold curvature
      rw [← stack_norm env.p (fun r => slopeAt r a.vars fun i => a.vars i - best i), ← jac_vec, ← vec_norm]
    have hcd : curvature env.p a.vars it.lambda b.dx = ‖J dx‖ ^ 2 + lam * ‖dx‖ ^ 2 := by
      unfold curvature
      rw [← stack_norm env.p (fun r => slopeAt r a.vars b.dx), ← jac_vec, ← vec_norm]
    rw [hslope, hce, hcd] at hg
    have hje := curved_jac hc a.vars e
    rw [← hJ] at hje
    have htol : 0 ≤ prm.absoluteFirstDerivativeTol := by linarith
    rw [hcost, le_div_iff₀ (by linarith)]
    set X := ‖J e‖ ^ 2 with hX
    have hX0 : 0 ≤ X := sq_nonneg _
    have h3 : m * (X + lam * ‖e‖ ^ 2) ≤ (m + lam) * X := by
      have := mul_le_mul_of_nonneg_left hje hl
      nlinarith
    have h4 : m * X ^ 2 ≤ prm.absoluteFirstDerivativeTol * ((m + lam) * X) := by
      have h5 : X ^ 2 ≤ prm.absoluteFirstDerivativeTol * (X + lam * ‖e‖ ^ 2) :=
        hg.trans (mul_le_mul_of_nonneg_right hlt.le (by positivity))
      have h6 := mul_le_mul_of_nonneg_left h5 hmp.le
      have h7 := mul_le_mul_of_nonneg_left h3 htol
      linarith
    rcases hX0.eq_or_lt with h0 | hpos
    · rw [← h0]; 
      have : 0 ≤ prm.absoluteFirstDerivativeTol * (m + lam) := mul_nonneg htol hml.le
      linarith
    · have h8 : X * (m * X) ≤ X * (prm.absoluteFirstDerivativeTol * (m + lam)) := by linarith
      have := le_of_mul_le_mul_left h8 hpos
      linarith

/-- **C97** (damping). On a linear least squares problem with positive definite `JᵀJ` no line search ever fails: every iteration but
possibly the last one succeeds, the damping decays geometrically down to `min_lambda`, and `MAX_LAMBDA` is never reported. -/
theorem C97_damping (env : Env D D ℝ) (hE : LDLTContract env.E) (hr : env.retraction = none) (hp : WellPosed env.p D)
    (haff : AffineCosts env.p) (hi : env.p.ineq = []) (he : env.p.eqs = []) (m : ℝ)
    (hc : Curved env.p (fun _ => True) 0 m)
    (prm : NLSParams ℝ) (x0 : Fin D → ℝ) (o o' : env.Obj) (out : NLSOutputs ℝ) (calls : List (NLSIteration ℝ))
    (h : solve env prm x0 o = .ok (o', out, calls)) :
    out.termination ≠ .maxLambda ∧
    ∀ (k : Nat) it, out.iterations[k]? = some it →
      max it.lambda 0 = decayed prm k ∧ (it.stepResult = .success ∨ it.stepResult = .firstOrderSatisfied) ∧
      (k + 1 < out.iterations.length → it.stepResult = .success) := by
  obtain ⟨best, hbest⟩ := affine_exists haff hc
  have hbest' : ∀ y : Fin D → ℝ, costAt env.p best ≤ costAt env.p y := by
    intro y
    by_cases hy : y = best
    · rw [hy]
    · exact (hbest y hy).le
  obtain ⟨hex, -, -⟩ := C38_after env prm x0 o o' out calls h
  obtain ⟨hfirst, hstep⟩ := C43_state_machine env prm x0 o o' out calls h
  have hv' : NLSParamsValid prm := by obtain ⟨S, T, W, hv⟩ := solve_view h; exact hv.prmOk
  have hres : ∀ (k : Nat) it, out.iterations[k]? = some it →
      it.stepResult = .success ∨ it.stepResult = .firstOrderSatisfied := by
    intro k it hit
    have hk := lt_of_getElem? hit
    obtain ⟨a, ha, -⟩ := hex k hk.le
    obtain ⟨b, hb, -⟩ := hex (k + 1) hk
    rcases (C97_iteration env hE hr hp haff hi he m hc best hbest' prm x0 o o' out calls h k it hit a b ha hb).2 with hh | hh
    · exact Or.inl hh.1
    · exact Or.inr hh.1
  have hsucc : ∀ (k : Nat) it, out.iterations[k]? = some it → k + 1 < out.iterations.length → it.stepResult = .success := by
    intro k it hit hk
    rcases hres k it hit with hh | hh
    · exact hh
    · have := hstep k it hit
      rw [hh] at this
      have hn := this.2
      rw [List.getElem?_eq_getElem hk] at hn
      cases hn
  have hstate : ∀ k, k < out.iterations.length → stateBefore out.iterations k = .nominal := by
    intro k hk
    cases k with
    | zero => rfl
    | succ k =>
      obtain ⟨it, hit⟩ : ∃ it, out.iterations[k]? = some it := ⟨_, List.getElem?_eq_getElem (by omega)⟩
      have := hstep k it hit
      rw [hsucc k it hit hk] at this
      simp [stateBefore, hit, this.1]
  refine ⟨?_, ?_⟩
  · intro hT
    have := C46_termination env prm x0 o o' out calls h
    rw [hT] at this
    obtain ⟨it, hl, hm⟩ := this
    have hmem : it ∈ out.iterations := List.mem_of_getLast? hl
    obtain ⟨k, hk⟩ := List.mem_iff_getElem?.mp hmem
    rcases hres k it hk with hh | hh <;> simp [ExitMeans, hh] at hm
  · intro k
    induction k with
    | zero =>
      intro it hit
      refine ⟨?_, hres 0 it hit, hsucc 0 it hit⟩
      rw [hfirst it hit]
      unfold decayed
      rw [pow_zero, mul_one, max_eq_left hv'.lambdaInitial.1]
    | succ k ih =>
      intro it' hit'
      refine ⟨?_, hres _ it' hit', hsucc _ it' hit'⟩
      have hk := lt_of_getElem? hit'
      obtain ⟨it, hit⟩ : ∃ it, out.iterations[k]? = some it := ⟨_, List.getElem?_eq_getElem (by omega)⟩
      have hs := hstep k it hit
      rw [hsucc k it hit hk] at hs
      have hl := hs.2 it'.lambda (by rw [hit']; rfl)
      rw [hstate k (by omega)] at hl
      obtain ⟨ihl, -⟩ := ih it hit
      obtain ⟨d0, d1⟩ := hv'.lambdaDecreaseOnSuccess
      rw [hl, real_cmax]
      show max (max (it.lambda * prm.lambdaDecreaseOnSuccess) prm.minLambda) 0 = _
      unfold decayed at ihl ⊢
      set δ := prm.lambdaDecreaseOnSuccess
      have e1 : max (it.lambda * δ) 0 = max it.lambda 0 * δ := by rw [max_mul_of_nonneg _ _ d0, zero_mul]
      have e2 : max (max (prm.lambdaInitial * δ ^ k) prm.minLambda) 0 * δ
          = max (max (prm.lambdaInitial * δ ^ (k + 1)) (prm.minLambda * δ)) 0 := by
        rw [max_mul_of_nonneg _ _ d0, max_mul_of_nonneg _ _ d0, zero_mul, pow_succ, mul_assoc]
      have e3 : max (max (it.lambda * δ) prm.minLambda) 0 = max (max (it.lambda * δ) 0) prm.minLambda := by
        rw [max_assoc, max_comm prm.minLambda 0, ← max_assoc]
      rw [e3, e1, ihl, e2]
      have e4 : prm.minLambda * δ ≤ max prm.minLambda 0 := by
        rcases le_total 0 prm.minLambda with hm | hm
        · exact le_max_of_le_left (by nlinarith)
        · exact le_max_of_le_right (by nlinarith)
      apply le_antisymm
      · refine max_le (max_le (max_le ?_ ?_) ?_) ?_
        · exact le_max_of_le_left (le_max_left _ _)
        · refine e4.trans (max_le ?_ ?_)
          · exact le_max_of_le_left (le_max_right _ _)
          · exact le_max_right _ _
        · exact le_max_right _ _
        · exact le_max_of_le_left (le_max_right _ _)
      · refine max_le (max_le ?_ ?_) ?_
        · exact le_max_of_le_left (le_max_of_le_left (le_max_left _ _))
        · exact le_max_right _ _
        · exact le_max_of_le_left (le_max_right _ _)

theorem dampedRate_nonneg {m lam : ℝ} (hm : 0 < m) (hl : 0 ≤ lam) : 0 ≤ dampedRate m lam :=
  div_nonneg hl (by linarith)

theorem decayed_nonneg (prm : NLSParams ℝ) (k : Nat) : 0 ≤ decayed prm k := le_max_right _ _

/-- **C97**. Linear least squares with any damping, no constraints, `JᵀJ` at least `m > 0`: there is a unique global minimiser. When
`k` iterations have been accepted, the distance to it is the start's times at most the product of the factors
`lam_j / (m + lam_j)`, where `lam_j` decays geometrically, and the distance of the cost from its minimum is bounded by the square of
this product. The returned variables satisfy this with all logged iterations; or the solver reports
`SATISFIED_FIRST_ORDER_TOL`, and the cost is within `tol (m + lam) / (2 m)` of its minimum. -/
theorem C97_damped_least_squares (env : Env D D ℝ) (hE : LDLTContract env.E) (hr : env.retraction = none)
    (hp : WellPosed env.p D) (haff : AffineCosts env.p) (hi : env.p.ineq = []) (he : env.p.eqs = []) (m : ℝ)
    (hc : Curved env.p (fun _ => True) 0 m)
    (prm : NLSParams ℝ) (x0 : Fin D → ℝ) (o o' : env.Obj) (out : NLSOutputs ℝ) (calls : List (NLSIteration ℝ))
    (h : solve env prm x0 o = .ok (o', out, calls)) :
    ∃ best : Fin D → ℝ, (∀ y, y ≠ best → costAt env.p best < costAt env.p y) ∧
      let rate := fun k => ∏ j ∈ Finset.range k, dampedRate m (decayed prm j)
      (∀ (k : Nat) it a, out.iterations[k]? = some it → After env prm x0 o k a →
        dist2 a.vars best ≤ rate k * dist2 x0 best ∧
        costAt env.p a.vars - costAt env.p best ≤ rate k ^ 2 * (costAt env.p x0 - costAt env.p best)) ∧
      ((out.termination = .satisfiedFirstOrderTol ∧
          costAt env.p o'.vars - costAt env.p best
            ≤ prm.absoluteFirstDerivativeTol * (m + decayed prm (out.iterations.length - 1)) / (2 * m)) ∨
        (dist2 o'.vars best ≤ rate out.iterations.length * dist2 x0 best ∧
          costAt env.p o'.vars - costAt env.p best
            ≤ rate out.iterations.length ^ 2 * (costAt env.p x0 - costAt env.p best))) := by
  obtain ⟨best, hbest⟩ := affine_exists haff hc
  have hbest' : ∀ y : Fin D → ℝ, costAt env.p best ≤ costAt env.p y := by
    intro y
    by_cases hy : y = best
    · rw [hy]
    · exact (hbest y hy).le
  obtain ⟨hex, h0, hend⟩ := C38_after env prm x0 o o' out calls h
  obtain ⟨-, hdamp⟩ := C97_damping env hE hr hp haff hi he m hc prm x0 o o' out calls h
  have hone := C97_iteration env hE hr hp haff hi he m hc best hbest' prm x0 o o' out calls h
  refine ⟨best, hbest, ?_⟩
  intro rate
  have hrate : ∀ k, 0 ≤ rate k := fun k =>
    Finset.prod_nonneg fun j _ => dampedRate_nonneg hc.pos (decayed_nonneg prm j)
  have key : ∀ k, k ≤ out.iterations.length →
      (∀ (j : Nat) it, j < k → out.iterations[j]? = some it → it.stepResult = .success) → ∀ a, After env prm x0 o k a →
      dist2 a.vars best ≤ rate k * dist2 x0 best ∧
      costAt env.p a.vars - costAt env.p best ≤ rate k ^ 2 * (costAt env.p x0 - costAt env.p best) := by
    intro k
    induction k with
    | zero =>
      intro _ _ a ha
      rw [h0 a ha]
      simp [rate]
    | succ k ih =>
      intro hk hs b hb
      obtain ⟨a, ha, -⟩ := hex k (by omega)
      obtain ⟨it, hit⟩ : ∃ it, out.iterations[k]? = some it := ⟨_, List.getElem?_eq_getElem (by omega)⟩
      obtain ⟨i1, i2⟩ := ih (by omega) (fun j it hj => hs j it (by omega)) a ha
      have hsucc := hs k it (by omega) hit
      rcases (hone k it hit a b ha hb).2 with ⟨-, d1, d2⟩ | ⟨hf, -⟩
      · rw [(hdamp k it hit).1] at d1 d2
        have hq := dampedRate_nonneg hc.pos (decayed_nonneg prm k)
        have e : rate (k + 1) = rate k * dampedRate m (decayed prm k) := Finset.prod_range_succ _ _
        rw [e]
        constructor
        · refine d1.trans ((mul_le_mul_of_nonneg_left i1 hq).trans (le_of_eq (by ring)))
        · refine d2.trans ((mul_le_mul_of_nonneg_left i2 (sq_nonneg _)).trans (le_of_eq (by ring)))
      · rw [hsucc] at hf; cases hf
  refine ⟨?_, ?_⟩
  · intro k it a hit ha
    have hk := lt_of_getElem? hit
    exact key k hk.le (fun j it' hj hj' => (hdamp j it' hj').2.2 (by omega)) a ha
  · obtain ⟨oe, hoe, -⟩ := hex out.iterations.length le_rfl
    rw [← hend oe hoe]
    by_cases hlast : ∃ it, out.iterations.getLast? = some it ∧ it.stepResult = .firstOrderSatisfied
    · left
      obtain ⟨it, hl, hf⟩ := hlast
      rw [List.getLast?_eq_getElem?] at hl
      have hk := lt_of_getElem? hl
      obtain ⟨a, ha, -⟩ := hex (out.iterations.length - 1) (by omega)
      have e : out.iterations.length - 1 + 1 = out.iterations.length := by omega
      rcases (hone _ it hl a oe ha (by rw [e]; exact hoe)).2 with ⟨hs, -⟩ | ⟨-, hv, hlt, hle⟩
      · rw [hf] at hs; cases hs
      · refine ⟨(C46_exits_are_taken env prm x0 o o' out calls h _ it hl .satisfiedFirstOrderTol ⟨hf, hlt⟩).2, ?_⟩
        rw [hv, ← (hdamp _ it hl).1]; exact hle
    · right
      refine key _ le_rfl (fun j it hj hit => ?_) oe hoe
      by_cases hj' : j + 1 < out.iterations.length
      · exact (hdamp j it hit).2.2 hj'
      · rcases (hdamp j it hit).2.1 with hs | hs
        · exact hs
        · refine absurd ⟨it, ?_, hs⟩ hlast
          rw [List.getLast?_eq_getElem?]
          rw [show out.iterations.length - 1 = j by omega]
          exact hit

/-- **C97** (`SATISFIED_RELATIVE_TOL`). If the solve of such a problem ends because the cost decreased by less than the relative
tolerance, the returned cost is close to the minimum: with `s = lam / (m + lam)` of the last iteration,
`(1 - s²) (cost - minimum) ≤ s² * relative_exit_tol * (cost before the last iteration)`. In particular without damping it is the
minimum. -/
theorem C97_relative_exit (env : Env D D ℝ) (hE : LDLTContract env.E) (hr : env.retraction = none)
    (hp : WellPosed env.p D) (haff : AffineCosts env.p) (hi : env.p.ineq = []) (he : env.p.eqs = []) (m : ℝ)
    (hc : Curved env.p (fun _ => True) 0 m) (best : Fin D → ℝ) (hbest : ∀ y : Fin D → ℝ, costAt env.p best ≤ costAt env.p y)
    (prm : NLSParams ℝ) (x0 : Fin D → ℝ) (o o' : env.Obj) (out : NLSOutputs ℝ) (calls : List (NLSIteration ℝ))
    (h : solve env prm x0 o = .ok (o', out, calls)) (hT : out.termination = .satisfiedRelativeTol) :
    ∃ it, out.iterations.getLast? = some it ∧
      (1 - dampedRate m (max it.lambda 0) ^ 2) * (costAt env.p o'.vars - costAt env.p best)
        ≤ dampedRate m (max it.lambda 0) ^ 2 * (prm.relativeExitTol * it.errorsInitial.f) := by
  have hterm := C46_termination env prm x0 o o' out calls h
  rw [hT] at hterm
  obtain ⟨it, hl, hs, st, hst, -, hrel⟩ := hterm
  refine ⟨it, hl, ?_⟩
  obtain ⟨hex, -, hend⟩ := C38_after env prm x0 o o' out calls h
  rw [List.getLast?_eq_getElem?] at hl
  have hk := lt_of_getElem? hl
  obtain ⟨a, ha, -⟩ := hex (out.iterations.length - 1) (by omega)
  obtain ⟨oe, hoe, -⟩ := hex out.iterations.length le_rfl
  rw [← hend oe hoe]
  have e : out.iterations.length - 1 + 1 = out.iterations.length := by omega
  have hb : After env prm x0 o (out.iterations.length - 1 + 1) oe := by rw [e]; exact hoe
  rcases (C97_iteration env hE hr hp haff hi he m hc best hbest prm x0 o o' out calls h _ it hl a oe ha hb).2
    with ⟨-, -, hgap⟩ | ⟨hf, -⟩
  · obtain ⟨e1, -, e3⟩ := C39_logged_errors env hp.consistent prm x0 o o' out calls h _ it hl a oe ha hb
    have hviol : ∀ x : Fin D → ℝ, violationAt env.p x = 0 := by
      intro x; unfold violationAt; rw [he]; rfl
    have hst' : st.errors = errorsAt env.p oe.vars := by
      obtain ⟨st', h1, h2⟩ := e3 hs
      rw [hst] at h1
      cases h1
      exact h2
    rw [e1, hst'] at hrel
    unfold Errors.total errorsAt at hrel
    simp only [hviol, mul_zero, add_zero] at hrel
    rw [e1]
    show _ ≤ _ * (_ * costAt env.p a.vars)
    have hq := sq_nonneg (dampedRate m (max it.lambda 0))
    have h1 := mul_le_mul_of_nonneg_left (by linarith : costAt env.p a.vars - costAt env.p best
      ≤ (costAt env.p oe.vars - costAt env.p best) + prm.relativeExitTol * costAt env.p a.vars) hq
    linarith
  · rw [hs] at hf; cases hf

end MiniOpt.Props
