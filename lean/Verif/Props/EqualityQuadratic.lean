import Verif.Spec.EqBasinSpec
import Verif.Lemmas.EqGaussNewton
import Verif.Props.QuadraticConvergence
import Verif.Props.EqualityConvergence

/-!
# C126: quadratic convergence with equality constraints (exact arithmetic)
-/

set_option autoImplicit false

namespace MiniOpt.Props

open MiniOpt.Spec MiniOpt.NLS MiniOpt.GN

variable {D : Nat}

/-- If the full step gives sufficient decrease of the merit function, it is the only trial. -/
theorem full_step_any (env : Env D D ℝ) (hr : env.retraction = none) (hp : WellPosed env.p D)
    (prm : NLSParams ℝ) (x0 : Fin D → ℝ) (o o' : env.Obj) (out : NLSOutputs ℝ)
    (calls : List (NLSIteration ℝ)) (h : solve env prm x0 o = .ok (o', out, calls)) (k : Nat) (it : NLSIteration ℝ)
    (hit : out.iterations[k]? = some it) (a b : env.Obj) (ha : After env prm x0 o k a) (hb : After env prm x0 o (k + 1) b)
    (hneg : it.directionalDerivatives.total it.penalty ≤ 0)
    (hdec : (errorsAt env.p (fun i => a.vars i + b.dx i)).total it.penalty ≤ (errorsAt env.p a.vars).total it.penalty
      + it.directionalDerivatives.total it.penalty / 10 ^ 4) :
    (∃ st, it.lineSearchSteps = [st] ∧ st.alpha = 1 ∧ st.errors = errorsAt env.p (fun i => a.vars i + b.dx i)) ∧
    it.errorsInitial = errorsAt env.p a.vars ∧
    ((it.stepResult = .success ∧ b.vars = fun i => a.vars i + b.dx i) ∨
      (it.stepResult = .firstOrderSatisfied ∧ b.vars = a.vars ∧
        it.directionalDerivatives.lInfinity < prm.absoluteFirstDerivativeTol)) := by
  have hmem := List.mem_of_getElem? hit
  obtain ⟨h1, h2, h3⟩ := C38_direction env prm x0 o o' out calls h k it hit a b ha hb
  obtain ⟨f1, -⟩ := linearize_facts hp h1
  obtain ⟨-, e2, -⟩ := C39_logged_errors env hp.consistent prm x0 o o' out calls h k it hit a b ha hb
  obtain ⟨hne, -, hfirst, -⟩ := C40_alphas_any env prm x0 o o' out calls h it hmem
  obtain ⟨hrejected, hsucc⟩ := C40_only_last_accepted env prm x0 o o' out calls h it hmem
  obtain ⟨st, hst⟩ : ∃ st, it.lineSearchSteps[0]? = some st := ⟨_, List.getElem?_eq_getElem hne⟩
  have hst1 := hfirst st hst
  have herr : st.errors = errorsAt env.p (fun i => a.vars i + b.dx i) := by
    obtain ⟨y, hmv, herr⟩ := e2 st (List.mem_of_getElem? hst)
    unfold Moves at hmv
    rw [hr] at hmv
    obtain ⟨_, hy⟩ := hmv
    have : y = fun i => a.vars i + b.dx i := by rw [hy, hst1]; funext i; simp
    rw [herr, this]
  have harm : st.errors.total it.penalty ≤ it.errorsInitial.total it.penalty
      + it.directionalDerivatives.total it.penalty * st.alpha * armijoC1 := by
    rw [hst1, herr, f1]
    unfold armijoC1
    simp only [real_lit]
    push_cast
    linarith
  have hlen : it.lineSearchSteps = [st] := by
    have hl1 : ¬ 1 < it.lineSearchSteps.length := by
      intro hl
      exact (hrejected 0 st hl hst).2 harm
    cases hL : it.lineSearchSteps with
    | nil => rw [hL] at hst; cases hst
    | cons s0 rest =>
      rw [hL] at hst hl1
      simp only [List.length_cons] at hl1
      have : rest = [] := List.length_eq_zero_iff.mp (by omega)
      subst this
      simp at hst
      rw [hst]
  have hlast : it.lineSearchSteps.getLast? = some st := by rw [hlen]; rfl
  obtain ⟨hm1, hm2⟩ := C38_variables_move env prm x0 o o' out calls h k it hit a b ha hb
  refine ⟨⟨st, hlen, hst1, herr⟩, f1, ?_⟩
  by_cases hsmall : it.directionalDerivatives.lInfinity < prm.absoluteFirstDerivativeTol
  · right
    have hres : it.stepResult = .firstOrderSatisfied := by
      obtain ⟨S, T, W, hv⟩ := solve_view h
      obtain ⟨hlt, hinfo, hpass⟩ := view_info hv hit
      obtain ⟨-, hout, -⟩ := lsLoop_start _ _ _ _ _ _ _ _ _ _ _ _ hpass.ls
      have hf := hout.facts
      have hsteps : it.lineSearchSteps = (W k).steps := by rw [hinfo]; exact hpass.isteps
      have hres' : it.stepResult = (W k).res := by rw [hinfo]; exact hpass.ires
      have hd' : costDerivative (W k).qp (W k).dx = it.directionalDerivatives := by rw [hinfo]; exact hpass.ideriv.symm
      have hmem' : st ∈ (W k).steps := by rw [← hsteps, hlen]; simp
      rw [hd'] at hf
      rw [hres']
      cases hr' : (W k).res with
      | firstOrderSatisfied => rfl
      | success =>
        obtain ⟨_, _, _, hn, _⟩ := hf.success hr'
        exact absurd hsmall hn
      | maxIterations => exact absurd hsmall ((hf.maxIter hr').2 st hmem').notFirstOrder
      | positiveDerivative =>
        obtain ⟨_, _, _, hn, _⟩ := hf.positive hr'
        exact absurd hsmall hn
      | failureNonFiniteCost =>
        obtain ⟨_, _, hn⟩ := hf.nonFinite hr'
        exact absurd hn (real_valid _)
      | failureInvalidAlpha => exact absurd hsmall ((hf.invalidAlpha hr').2.1 st hmem').notFirstOrder
    exact ⟨hres, hm2 (by rw [hres]; simp), hsmall⟩
  · left
    have hs : it.stepResult = .success := hsucc.mpr ⟨st, hlast, real_valid _, hsmall, not_lt.mpr hneg, harm⟩
    refine ⟨hs, ?_⟩
    obtain ⟨st', hst', hmv⟩ := hm1 hs
    rw [hlast] at hst'
    cases hst'
    unfold Moves at hmv
    rw [hr, hst1] at hmv
    obtain ⟨_, hvars⟩ := hmv
    rw [hvars]; funext i; simp

/-- The direction of the null-space path minimises the model among the displacements that satisfy the linearized constraints. -/
theorem null_space_min (env : Env D D ℝ) (hE : NSContract env.NE) (hp : WellPosed env.p D) (hi : env.p.ineq = [])
    (he : env.p.eqs ≠ []) (prm : NLSParams ℝ) (x0 : Fin D → ℝ) (o o' : env.Obj) (out : NLSOutputs ℝ)
    (calls : List (NLSIteration ℝ)) (h : solve env prm x0 o = .ok (o', out, calls))
    (k : Nat) (it : NLSIteration ℝ) (hk : out.iterations[k]? = some it) (a b : env.Obj) (ha : After env prm x0 o k a)
    (hb : After env prm x0 o (k + 1) b) (v : Fin D → ℝ) (hv : ∀ r ∈ env.p.eqs, ∀ k, linAt r a.vars v k = 0) :
    costSlope env.p a.vars b.dx + 1 / 2 * curvature env.p a.vars it.lambda b.dx
      ≤ costSlope env.p a.vars v + 1 / 2 * curvature env.p a.vars it.lambda v := by
  have hit := List.mem_of_getElem? hk
  have hns := (C45_which_solver env prm x0 o o' out calls h it hit).1 ⟨hi, he⟩
  obtain ⟨h1, h2, h3⟩ := C38_direction env prm x0 o o' out calls h k it hk a b ha hb
  obtain ⟨f1, f2, f3, f4, f5, f6⟩ := linearize_facts hp h1
  have hrow := linearized_rows f3 f4 hv
  rcases h3 with ⟨_, _, _, q, _, h4, _⟩ | ⟨s, s', h4, -, h5⟩
  · rw [hns] at h4; cases h4
  · have hmin := (C26_null_space_minimiser env.NE hE _ s _ h4 rfl).2 v hrow
    have hobj : objective (⟨b.qp.G, b.qp.c, b.qp.A, b.qp.b, Fin.elim0⟩ : QP D 0 env.p.K ℝ) b.dx
        ≤ objective (⟨b.qp.G, b.qp.c, b.qp.A, b.qp.b, Fin.elim0⟩ : QP D 0 env.p.K ℝ) v := by
      rw [h5]
      by_cases hne : v = s'.x
      · rw [hne]
      · exact (hmin hne).le
    unfold objective Gsym at hobj
    simp only at hobj
    have e2 := f2 v
    have e6 := f6 v
    have e2' := f2 b.dx
    have e6' := f6 b.dx
    unfold costSlope curvature
    rw [← e2, ← e6, ← e2', ← e6']
    linarith

/-- Without damping the model is half the squared norm of the linearized residual (up to its value at zero). -/
theorem model_norm (p : Problem D ℝ) (x v : Fin D → ℝ) (lam : ℝ) (hl : lam ≤ 0) :
    costSlope p x v + 1 / 2 * curvature p x lam v
      = 1 / 2 * ‖stack p (fun r => valueAt r x) + jac p x (vec v)‖ ^ 2 - 1 / 2 * ‖stack p (fun r => valueAt r x)‖ ^ 2 ∧
    costSlope p x v = (‖stack p (fun r => valueAt r x) + jac p x (vec v)‖ ^ 2 - ‖stack p (fun r => valueAt r x)‖ ^ 2
      - ‖jac p x (vec v)‖ ^ 2) / 2 := by
  have h1 : ‖stack p (fun r => valueAt r x) + jac p x (vec v)‖ ^ 2
      = ‖stack p (fun r => valueAt r x)‖ ^ 2 + 2 * costSlope p x v + ‖jac p x (vec v)‖ ^ 2 := by
    rw [jac_vec, stack_add, stack_norm, stack_norm, stack_norm]
    unfold costSlope
    rw [← List.sum_map_mul_left, ← List.sum_map_add, ← List.sum_map_add]
    refine congrArg List.sum (List.map_congr_left fun r _ => ?_)
    rw [Finset.mul_sum, ← Finset.sum_add_distrib, ← Finset.sum_add_distrib]
    exact Finset.sum_congr rfl fun k _ => by ring
  have h2 : curvature p x lam v = ‖jac p x (vec v)‖ ^ 2 := by
    unfold curvature
    rw [max_eq_right hl, zero_mul, add_zero, jac_vec, stack_norm]
  constructor
  · rw [h1, h2]; ring
  · rw [h1]; ring

theorem slopeAt_add (r : Residual ℝ) (x u v : Fin D → ℝ) (k : Fin r.dim) :
    slopeAt r x (fun i => u i + v i) k = slopeAt r x u k + slopeAt r x v k := by
  unfold slopeAt
  rw [← Finset.sum_add_distrib]
  exact Finset.sum_congr rfl fun j _ => by ring

theorem slopeAt_smul (r : Residual ℝ) (x u : Fin D → ℝ) (t : ℝ) (k : Fin r.dim) :
    slopeAt r x (fun i => t * u i) k = t * slopeAt r x u k := by
  unfold slopeAt
  rw [Finset.mul_sum]
  exact Finset.sum_congr rfl fun j _ => by ring

theorem eqbasin_rate {σ L B κ Lc ρ : ℝ} (hσ : 0 < σ) (hc : (L + B * κ * Lc) * ρ ≤ σ / 8) (hn : κ * Lc * ρ ≤ 3 / 8) :
    squareRate σ L B κ Lc * ρ ≤ 1 / 4 := by
  unfold squareRate
  have e : ((L + B * κ * Lc) / (2 * σ) + κ * Lc / 2) * ρ = ((L + B * κ * Lc) * ρ) / (2 * σ) + κ * Lc * ρ / 2 := by ring
  rw [e]
  have h1 : ((L + B * κ * Lc) * ρ) / (2 * σ) ≤ 1 / 16 := by
    rw [div_le_iff₀ (by linarith)]
    linarith
  linarith

/-- The direction computed at a point of the basin, whatever the line search does with it. -/
theorem eqbasin_direction (env : Env D D ℝ) (hE : NSContract env.NE) (hp : WellPosed env.p D)
    (hi : env.p.ineq = []) (he : env.p.eqs ≠ []) {xs : Fin D → ℝ} {ρ σ L B κ Lc : ℝ} (Q : EqBasin env.p xs ρ σ L B κ Lc)
    (prm : NLSParams ℝ) (x0 : Fin D → ℝ) (o o' : env.Obj) (out : NLSOutputs ℝ)
    (calls : List (NLSIteration ℝ)) (h : solve env prm x0 o = .ok (o', out, calls)) (k : Nat) (it : NLSIteration ℝ)
    (hit : out.iterations[k]? = some it) (hlam : it.lambda ≤ 0)
    (a b : env.Obj) (ha : After env prm x0 o k a) (hb : After env prm x0 o (k + 1) b) (hin : dist2 a.vars xs ≤ ρ)
    (hrows : ∀ r ∈ env.p.eqs, ∀ k, slopeAt r a.vars b.dx k = - valueAt r a.vars k) :
    ‖stack env.p (fun r => valueAt r a.vars) + jac env.p a.vars (vec b.dx)‖ ≤ (L + B * κ * Lc) / 2 * dist2 a.vars xs ^ 2 ∧
    dist2 (fun i => a.vars i + b.dx i) xs ≤ squareRate σ L B κ Lc * dist2 a.vars xs ^ 2 := by
  obtain ⟨hB0, hκ0, hLc0⟩ := Q.nonneg
  set x := a.vars with hx
  set q := dist2 x xs with hq
  obtain ⟨w, hw1, hw2⟩ := Q.inverse x hin fun r k => -(valueAt r x k + slopeAt r x (fun i => xs i - x i) k)
  have hxs : dist2 xs xs ≤ ρ := by rw [dist2_self]; exact Q.basin.radius
  have hg := Q.model x xs hin hxs
  have hw3 : ‖vec w‖ ≤ κ * Lc / 2 * q ^ 2 := by
    have e1 : ‖vec w‖ = Real.sqrt (∑ i, w i ^ 2) := by rw [← vec_norm, Real.sqrt_sq (norm_nonneg _)]
    rw [e1]
    refine hw2.trans ?_
    have e2 : (env.p.eqs.map fun r => ∑ k, |-(valueAt r x k + slopeAt r x (fun i => xs i - x i) k)|).sum
        = (env.p.eqs.map fun r => ∑ k, |valueAt r xs k - valueAt r x k - slopeAt r x (fun i => xs i - x i) k|).sum := by
      refine congrArg List.sum (List.map_congr_left fun r hr => Finset.sum_congr rfl fun k _ => ?_)
      rw [Q.zero r hr k]
      congr 1
      ring
    rw [e2]
    have := mul_le_mul_of_nonneg_left hg hκ0
    linarith
  have hJ : ‖stack env.p (fun r => valueAt r x) + jac env.p x (vec fun i => xs i - x i)‖ ≤ L / 2 * q ^ 2 := by
    have h1 := basin_model Q.basin hin hxs
    rw [basin_zero Q.basin, zero_sub, ← norm_neg] at h1
    have e : -(-stack env.p (fun r => valueAt r x) - jac env.p x (vec fun i => xs i - x i))
        = stack env.p (fun r => valueAt r x) + jac env.p x (vec fun i => xs i - x i) := by abel
    rwa [e] at h1
  have hrate : ∀ d : EuclideanSpace ℝ (Fin D), ‖jac env.p x d‖ ≤ B * ‖d‖ := by
    intro d
    refine sqrt_le (norm_nonneg _) (mul_nonneg hB0 (norm_nonneg _)) ?_
    have h1 := Q.rate x hin d.ofLp
    rw [← stack_norm, ← vec_norm] at h1
    rw [mul_pow]
    exact h1
  set n : Fin D → ℝ := fun i => b.dx i - (xs i - x i) - w i with hn
  have hn0 : ∀ r ∈ env.p.eqs, ∀ k, slopeAt r x n k = 0 := by
    intro r hr k
    have e : n = fun i => b.dx i + ((-1) * (xs i - x i) + (-1) * w i) := by funext i; rw [hn]; ring
    rw [e, slopeAt_add r x b.dx, slopeAt_add r x (fun i => -1 * (xs i - x i)), slopeAt_smul r x (fun i => xs i - x i),
      slopeAt_smul r x w, hw1 r hr k, hrows r hr k]
    ring
  have evec : vec b.dx - vec (fun i => xs i - x i) - vec w = vec n := by ext i; simp [vec, hn]
  have hnormal : inner ℝ (stack env.p (fun r => valueAt r x) + jac env.p x (vec b.dx))
      (jac env.p x (vec b.dx - vec (fun i => xs i - x i) - vec w)) = 0 := by
    rw [evec]
    refine normal_along fun t => ?_
    have hfe : ∀ r ∈ env.p.eqs, ∀ k, linAt r a.vars (fun i => b.dx i + t * n i) k = 0 := by
      intro r hr k
      show valueAt r x k + slopeAt r x (fun i => b.dx i + t * n i) k = 0
      rw [slopeAt_add r x b.dx, slopeAt_smul r x n, hrows r hr k, hn0 r hr k]
      ring
    have hmin := null_space_min env hE hp hi he prm x0 o o' out calls h k it hit a b ha hb _ hfe
    rw [(model_norm env.p x _ _ hlam).1, (model_norm env.p x _ _ hlam).1] at hmin
    have ev : vec (fun i => b.dx i + t * n i) = vec b.dx + t • vec n := by ext i; simp [vec]
    rw [ev, map_add, map_smul, ← add_assoc] at hmin
    linarith
  have hm : ∀ c : ℝ, B * κ * c = B * (κ * c) := fun c => by ring
  obtain ⟨s1, s2⟩ := eq_step Q.basin.pos hB0 hnormal (basin_stretch Q.basin hin) hrate hJ hw3
  refine ⟨by rw [hm]; exact s1, ?_⟩
  unfold squareRate
  rw [hm]
  have ed : dist2 (fun i => x i + b.dx i) xs = ‖vec b.dx - vec (fun i => xs i - x i)‖ := by
    rw [dist2_vec]; congr 1; ext i; simp [vec]; ring
  rw [ed]
  exact s2

/-- One iteration inside the basin. -/
theorem eqbasin_iteration (env : Env D D ℝ) (hE : NSContract env.NE) (hr : env.retraction = none) (hp : WellPosed env.p D)
    (hi : env.p.ineq = []) (he : env.p.eqs ≠ []) {xs : Fin D → ℝ} {ρ σ L B κ Lc : ℝ} (Q : EqBasin env.p xs ρ σ L B κ Lc)
    (prm : NLSParams ℝ) (x0 : Fin D → ℝ) (o o' : env.Obj) (out : NLSOutputs ℝ)
    (calls : List (NLSIteration ℝ)) (h : solve env prm x0 o = .ok (o', out, calls)) (k : Nat) (it : NLSIteration ℝ)
    (hit : out.iterations[k]? = some it) (hlam : it.lambda ≤ 0) (hpen : it.penalty * Lc ≤ σ ^ 2 / 2)
    (a b : env.Obj) (ha : After env prm x0 o k a) (hb : After env prm x0 o (k + 1) b) (hin : dist2 a.vars xs ≤ ρ) :
    costSlope env.p a.vars b.dx + 1 / 2 * curvature env.p a.vars it.lambda b.dx ≤ 0 ∧
    (∃ st, it.lineSearchSteps = [st] ∧ st.alpha = 1 ∧
      st.errors.total it.penalty ≤ 23 / 25 * it.errorsInitial.total it.penalty ∧
      st.errors.f ≤ 1 / 2 * (41 / 32 * (L + B * κ * Lc) * dist2 a.vars xs ^ 2) ^ 2 ∧
      st.errors.equality ≤ 25 / 32 * Lc * dist2 a.vars xs ^ 2 ∧
      (it.stepResult = .success → (3 / 4 * σ * dist2 b.vars xs) ^ 2 ≤ 2 * st.errors.f)) ∧
    0 ≤ it.errorsInitial.total it.penalty ∧
    ((it.stepResult = .success ∧ dist2 b.vars xs ≤ squareRate σ L B κ Lc * dist2 a.vars xs ^ 2 ∧
        dist2 b.vars xs ≤ 1 / 4 * dist2 a.vars xs) ∨
      (it.stepResult = .firstOrderSatisfied ∧ b.vars = a.vars ∧
        (4 / 5 * σ * dist2 a.vars xs) ^ 2 ≤ prm.absoluteFirstDerivativeTol)) := by
  obtain ⟨hB0, hκ0, hLc0⟩ := Q.nonneg
  have hS := null_space_step env hE hr hp hi he prm x0 o o' out calls h k it hit a b ha hb
  obtain ⟨d1, d2⟩ := eqbasin_direction env hE hp hi he Q prm x0 o o' out calls h k it hit hlam a b ha hb hin hS.rows
  have hP : 0 < it.penalty := ((C44_penalty env prm x0 o o' out calls h).1 it (List.mem_of_getElem? hit)).1
  set x := a.vars with hx
  set q := dist2 x xs with hq
  have hq0 : 0 ≤ q := dist2_nonneg _ _
  have hquarter : squareRate σ L B κ Lc * q ^ 2 ≤ 1 / 4 * q := by
    have h1 := eqbasin_rate Q.basin.pos Q.close Q.near
    have hc0 : 0 ≤ squareRate σ L B κ Lc := by
      unfold squareRate
      have h2 : 0 ≤ L := Q.basin.nonneg
      have h3 := Q.basin.pos
      positivity
    have h2 : squareRate σ L B κ Lc * q ≤ 1 / 4 := (mul_le_mul_of_nonneg_left hin hc0).trans h1
    have := mul_le_mul_of_nonneg_right h2 hq0
    linarith
  have hin' : dist2 (fun i => x i + b.dx i) xs ≤ ρ := by linarith
  have hs : ‖vec b.dx‖ ≤ 5 / 4 * q := by
    have e1 : vec b.dx = vec (fun i => x i + b.dx i - xs i) - vec (fun i => x i - xs i) := by ext i; simp [vec]
    have h1 := norm_sub_le (vec fun i => x i + b.dx i - xs i) (vec fun i => x i - xs i)
    rw [← e1, ← dist2_vec x xs, ← dist2_vec (fun i => x i + b.dx i) xs] at h1
    linarith
  have e2 : dist2 x (fun i => x i + b.dx i) = ‖vec b.dx‖ := by
    rw [dist2_comm, dist2_vec]; congr 1; ext i; simp [vec]
  have e3 : (fun i => x i + b.dx i - x i) = b.dx := by funext i; ring
  have hmv := basin_model Q.basin hin hin'
  rw [e3, e2] at hmv
  have hvm := Q.model x _ hin hin'
  rw [e3, e2] at hvm
  set R := stack env.p (fun r => valueAt r x) with hRdef
  set R' := stack env.p (fun r => valueAt r fun i => x i + b.dx i) with hR'def
  set J := jac env.p x with hJdef
  have hv' : violationAt env.p (fun i => x i + b.dx i) ≤ Lc / 2 * ‖vec b.dx‖ ^ 2 := by
    refine le_trans (le_of_eq ?_) hvm
    rw [violationAt_real]
    refine congrArg List.sum (List.map_congr_left fun r hr => Finset.sum_congr rfl fun k _ => ?_)
    rw [hS.rows r hr k, sub_neg_eq_add, sub_add_cancel]
  have hbase : σ * q ≤ ‖R‖ + L / 2 * q ^ 2 := by
    have h1 := basin_stretch Q.basin hin (vec fun i => x i - xs i)
    obtain ⟨h2, -, -⟩ := basin_at Q.basin hin
    rw [← dist2_vec] at h1 h2
    have h3 : ‖J (vec fun i => x i - xs i)‖ ≤ ‖R‖ + ‖J (vec fun i => x i - xs i) - R‖ := by
      have e : J (vec fun i => x i - xs i) = R + (J (vec fun i => x i - xs i) - R) := by abel
      calc _ = ‖R + (J (vec fun i => x i - xs i) - R)‖ := by rw [← e]
        _ ≤ _ := norm_add_le _ _
    linarith
  obtain ⟨m1, m2⟩ := model_norm env.p x b.dx it.lambda hlam
  have hL0 := Q.basin.nonneg
  have hnum := eq_numbers (q := q) (R := ‖R‖) (N := ‖R + J (vec b.dx)‖) (R' := ‖R'‖) (j := ‖J (vec b.dx)‖) (s := ‖vec b.dx‖)
    (v := violationAt env.p x) (v' := violationAt env.p (fun i => x i + b.dx i)) (σ := σ) (a := (L + B * κ * Lc) / 2) (Lh := L / 2)
    (P := it.penalty) (Lc := Lc) (dF := costSlope env.p x b.dx) Q.basin.pos hq0 (violationAt_nonneg _ _) hP.le (norm_nonneg _)
    (norm_nonneg _) (norm_nonneg _) (norm_nonneg _) (norm_nonneg _)
    (by have : 0 ≤ B * κ * Lc := by positivity
        linarith) (by linarith)
    (by have h1 := mul_le_mul_of_nonneg_left hin (show 0 ≤ L + B * κ * Lc by positivity)
        have := Q.close
        linarith)
    d1 hs
    (by have e : R' = (R + J (vec b.dx)) + (R' - R - J (vec b.dx)) := by abel
        calc ‖R'‖ = ‖(R + J (vec b.dx)) + (R' - R - J (vec b.dx))‖ := by rw [← e]
          _ ≤ ‖R + J (vec b.dx)‖ + ‖R' - R - J (vec b.dx)‖ := norm_add_le _ _
          _ ≤ _ := by linarith)
    hv' hbase
    (by have e : J (vec b.dx) = (R + J (vec b.dx)) - R := by abel
        calc ‖J (vec b.dx)‖ = ‖(R + J (vec b.dx)) - R‖ := by rw [← e]
          _ ≤ ‖R + J (vec b.dx)‖ + ‖R‖ := norm_sub_le _ _
          _ = _ := add_comm _ _)
    (by have e : R = (R + J (vec b.dx)) - J (vec b.dx) := by abel
        calc ‖R‖ = ‖(R + J (vec b.dx)) - J (vec b.dx)‖ := by rw [← e]
          _ ≤ ‖R + J (vec b.dx)‖ + ‖J (vec b.dx)‖ := norm_sub_le _ _
          _ = _ := add_comm _ _)
    m2 hpen
  obtain ⟨n1, n2, n3, n4, n5, n6⟩ := hnum
  have hca := cost_norm env.p x
  have hcb := cost_norm env.p (fun i => x i + b.dx i)
  rw [← hRdef] at hca
  rw [← hR'def] at hcb
  have ht0 : (errorsAt env.p x).total it.penalty = 1 / 2 * ‖R‖ ^ 2 + it.penalty * violationAt env.p x := by
    unfold Errors.total errorsAt
    rw [← hca]
  have ht1 : (errorsAt env.p fun i => x i + b.dx i).total it.penalty
      = 1 / 2 * ‖R'‖ ^ 2 + it.penalty * violationAt env.p (fun i => x i + b.dx i) := by
    unfold Errors.total errorsAt
    rw [← hcb]
  have hPv : 0 ≤ it.penalty * violationAt env.p x := mul_nonneg hP.le (violationAt_nonneg _ _)
  obtain ⟨⟨st, hst, hal, herr⟩, hpre, hcase⟩ := full_step_any env hr hp prm x0 o o' out calls h k it hit a b ha hb
    (by rw [hS.total]; linarith) (by rw [hS.total, ht0, ht1]; exact n2)
  refine ⟨?_, ⟨st, hst, hal, ?_, ?_, ?_, ?_⟩, ?_, ?_⟩
  · rw [m1]; linarith
  · rw [herr, hpre, ht0, ht1]; exact n1
  · rw [herr]
    show costAt env.p _ ≤ _
    rw [hcb]
    have h1 := pow_le_pow_left₀ (norm_nonneg _) n5 2
    have e : (41 / 16 * ((L + B * κ * Lc) / 2) * q ^ 2) = 41 / 32 * (L + B * κ * Lc) * q ^ 2 := by ring
    rw [e] at h1
    linarith
  · rw [herr]
    show violationAt env.p _ ≤ _
    refine hv'.trans ?_
    have h1 := pow_le_pow_left₀ (norm_nonneg _) hs 2
    have h2 := mul_le_mul_of_nonneg_left h1 (show 0 ≤ Lc / 2 by linarith)
    rw [mul_pow] at h2
    linarith
  · intro hsu
    rcases hcase with ⟨-, hbv⟩ | ⟨hno, -⟩
    · rw [herr]
      show _ ≤ 2 * costAt env.p _
      rw [hcb, hbv]
      obtain ⟨-, -, h3⟩ := basin_at Q.basin hin'
      have := pow_le_pow_left₀ (mul_nonneg (by linarith [Q.basin.pos]) (dist2_nonneg _ _)) h3 2
      linarith
    · rw [hno] at hsu; cases hsu
  · rw [hpre, ht0]
    have := sq_nonneg ‖R‖
    linarith
  · rcases hcase with ⟨hsu, hbv⟩ | ⟨hno, hbv, hlt⟩
    · left
      rw [hbv]
      exact ⟨hsu, d2, d2.trans hquarter⟩
    · right
      refine ⟨hno, hbv, ?_⟩
      rw [hS.linf] at hlt
      exact n6.trans ((le_max_left _ _).trans hlt.le)

/-- Inside the basin the penalty is not raised. -/
theorem eqbasin_penalty (env : Env D D ℝ) (hE : NSContract env.NE) (hr : env.retraction = none) (hp : WellPosed env.p D)
    (hi : env.p.ineq = []) (he : env.p.eqs ≠ []) {xs : Fin D → ℝ} {ρ σ L B κ Lc : ℝ} (Q : EqBasin env.p xs ρ σ L B κ Lc)
    (prm : NLSParams ℝ) (hpen : 0 < prm.equalityPenaltyInitial) (x0 : Fin D → ℝ) (o o' : env.Obj) (out : NLSOutputs ℝ)
    (calls : List (NLSIteration ℝ)) (h : solve env prm x0 o = .ok (o', out, calls)) (k : Nat) (it : NLSIteration ℝ)
    (hit : out.iterations[k]? = some it) (hlam : it.lambda ≤ 0)
    (a b : env.Obj) (ha : After env prm x0 o k a) (hb : After env prm x0 o (k + 1) b) (hin : dist2 a.vars xs ≤ ρ)
    (hprev : ∀ j, k = j + 1 → ∀ itp, out.iterations[j]? = some itp → itp.penalty = prm.equalityPenaltyInitial) :
    it.penalty = prm.equalityPenaltyInitial := by
  obtain ⟨hB0, hκ0, hLc0⟩ := Q.nonneg
  have hS := null_space_step env hE hr hp hi he prm x0 o o' out calls h k it hit a b ha hb
  obtain ⟨d1, -⟩ := eqbasin_direction env hE hp hi he Q prm x0 o o' out calls h k it hit hlam a b ha hb hin hS.rows
  have hmem := List.mem_of_getElem? hit
  have hns := (C45_which_solver env prm x0 o o' out calls h it hmem).1 ⟨hi, he⟩
  obtain ⟨h1, h2, h3⟩ := C38_direction env prm x0 o o' out calls h k it hit a b ha hb
  obtain ⟨f1, f2, f3, f4, f5, f6⟩ := linearize_facts hp h1
  obtain ⟨hup, -⟩ := C44_penalty_update env prm x0 o o' out calls h k it hit b hb
  obtain ⟨S, T, W, hv⟩ := solve_view h
  have hrho := hv.prmOk.equalityPenaltyRho.2
  obtain ⟨-, h5, h6⟩ := basin_at Q.basin hin
  have hq0 := dist2_nonneg a.vars xs
  have hle : ‖stack env.p (fun r => valueAt r a.vars) + jac env.p a.vars (vec b.dx)‖ ≤ ‖stack env.p (fun r => valueAt r a.vars)‖ := by
    refine le_trans d1 (le_trans ?_ h6)
    have h7 := mul_le_mul_of_nonneg_left hin (show 0 ≤ L + B * κ * Lc from add_nonneg Q.basin.nonneg (by positivity))
    have h8 : (L + B * κ * Lc) * dist2 a.vars xs ≤ σ / 8 := h7.trans Q.close
    have h9 := mul_le_mul_of_nonneg_right h8 hq0
    have := mul_nonneg Q.basin.pos.le hq0
    linarith
  have hmodel : costSlope env.p a.vars b.dx + 1 / 2 * curvature env.p a.vars it.lambda b.dx ≤ 0 := by
    rw [(model_norm env.p a.vars b.dx it.lambda hlam).1]
    have := pow_le_pow_left₀ (norm_nonneg _) hle 2
    linarith
  have hwanted : selectPenalty b.qp b.dx (multipliers it.qpOutputs) prm.equalityPenaltyRho ≤ 0 := by
    have e0 : multipliers it.qpOutputs = none := by rw [hns]; rfl
    rw [e0, selectPenalty_null]
    have hc := curvature_nonneg env.p a.vars it.lambda b.dx
    have e : (∑ i, ∑ j, b.dx i * b.qp.G (max i j) (min i j) * b.dx j) = curvature env.p a.vars it.lambda b.dx := f6 b.dx
    have e1 : ∑ i, b.qp.c i * b.dx i = costSlope env.p a.vars b.dx := f2 b.dx
    rw [e, e1, max_eq_right hc]
    refine div_nonpos_of_nonpos_of_nonneg hmodel (mul_nonneg (by linarith) ?_)
    exact le_max_of_le_right (by norm_num)
  have hpv : (if k = 0 then prm.equalityPenaltyInitial
      else ((out.iterations[k - 1]?).map (·.penalty)).getD prm.equalityPenaltyInitial) = prm.equalityPenaltyInitial := by
    cases k with
    | zero => rfl
    | succ j =>
      rw [if_neg (by omega), show j + 1 - 1 = j by omega]
      cases hj : out.iterations[j]? with
      | none => rfl
      | some itp => exact hprev j rfl itp hj
  rw [hpv, if_neg (by rintro ⟨-, hlt⟩; linarith)] at hup
  exact hup

/-- Everything that is invariant along a run that starts in the basin. -/
theorem eqbasin_run (env : Env D D ℝ) (hE : NSContract env.NE) (hr : env.retraction = none) (hp : WellPosed env.p D)
    (hi : env.p.ineq = []) (he : env.p.eqs ≠ []) {xs : Fin D → ℝ} {ρ σ L B κ Lc : ℝ} (Q : EqBasin env.p xs ρ σ L B κ Lc)
    (prm : NLSParams ℝ) (hpen : 0 < prm.equalityPenaltyInitial) (hcap : prm.equalityPenaltyInitial * Lc ≤ σ ^ 2 / 2)
    (hlam : prm.lambdaInitial ≤ 0) (x0 : Fin D → ℝ) (hx0 : dist2 x0 xs ≤ ρ) (o o' : env.Obj)
    (out : NLSOutputs ℝ) (calls : List (NLSIteration ℝ)) (h : solve env prm x0 o = .ok (o', out, calls)) :
    ∀ k, k ≤ out.iterations.length →
      (∀ it, out.iterations[k]? = some it → it.lambda ≤ 0 ∧ it.penalty = prm.equalityPenaltyInitial) ∧
      (∀ ob, After env prm x0 o k ob → dist2 ob.vars xs ≤ ρ ∧
        ((k < out.iterations.length ∨ out.termination ≠ .satisfiedFirstOrderTol) →
          dist2 ob.vars xs ≤ ρ * (1 / 4) ^ (2 ^ k - 1))) := by
  obtain ⟨hex, hfirst, hlast⟩ := C38_after env prm x0 o o' out calls h
  obtain ⟨hl0, hlk⟩ := C43_state_machine env prm x0 o o' out calls h
  have hleg := C87_solve env prm x0 o o' out calls h
  obtain ⟨S, T, W, hv⟩ := solve_view h
  have hv' := hv.prmOk
  have hmlam : prm.minLambda ≤ 0 := le_trans hv'.lambdaInitial.1 hlam
  have hpenal : ∀ (k : Nat) it, out.iterations[k]? = some it → it.lambda ≤ 0 →
      (∀ ob, After env prm x0 o k ob → dist2 ob.vars xs ≤ ρ) →
      (∀ j, k = j + 1 → ∀ itp, out.iterations[j]? = some itp → itp.penalty = prm.equalityPenaltyInitial) →
      it.penalty = prm.equalityPenaltyInitial := by
    intro k it hit hl hd hprev
    have hk := lt_of_getElem? hit
    obtain ⟨a, ha, _⟩ := hex k (by omega)
    obtain ⟨b, hb, _⟩ := hex (k + 1) (by omega)
    exact eqbasin_penalty env hE hr hp hi he Q prm hpen x0 o o' out calls h k it hit hl a b ha hb (hd a ha) hprev
  intro k
  induction k with
  | zero =>
    intro _
    have hd : ∀ ob, After env prm x0 o 0 ob → dist2 ob.vars xs ≤ ρ := fun ob hob => by rw [hfirst ob hob]; exact hx0
    refine ⟨fun it hit => ?_, fun ob hob => ⟨hd ob hob, fun _ => by simpa using hd ob hob⟩⟩
    have hl : it.lambda ≤ 0 := by rw [hl0 it hit]; exact hlam
    exact ⟨hl, hpenal 0 it hit hl hd fun j hj => by omega⟩
  | succ k ih =>
    intro hk
    obtain ⟨ih1, ih2⟩ := ih (by omega)
    obtain ⟨it, hit⟩ : ∃ it, out.iterations[k]? = some it := ⟨_, List.getElem?_eq_getElem (by omega)⟩
    obtain ⟨a, ha, _⟩ := hex k (by omega)
    obtain ⟨b, hb, hbu⟩ := hex (k + 1) (by omega)
    obtain ⟨hin, hrate⟩ := ih2 a ha
    obtain ⟨hlk0, hpk⟩ := ih1 it hit
    obtain ⟨-, -, -, hcase⟩ := eqbasin_iteration env hE hr hp hi he Q prm x0 o o' out calls h k it hit hlk0
      (by rw [hpk]; exact hcap) a b ha hb hin
    have hdist : ∀ ob, After env prm x0 o (k + 1) ob → dist2 ob.vars xs ≤ ρ ∧
        ((k + 1 < out.iterations.length ∨ out.termination ≠ .satisfiedFirstOrderTol) →
          dist2 ob.vars xs ≤ ρ * (1 / 4) ^ (2 ^ (k + 1) - 1)) := by
      intro ob hob
      rw [hbu ob hob]
      rcases hcase with ⟨hs, hquad, hquarter⟩ | ⟨hs, hbv, -⟩
      · refine ⟨by have := dist2_nonneg a.vars xs; linarith, fun _ => ?_⟩
        have hσ := Q.basin.pos
        have e : 2 * σ * squareRate σ L B κ Lc / (2 * σ) = squareRate σ L B κ Lc := by field_simp
        have hc0 : 0 ≤ squareRate σ L B κ Lc := by
          obtain ⟨hB0, hκ0, hLc0⟩ := Q.nonneg
          have h2 : 0 ≤ L := Q.basin.nonneg
          unfold squareRate
          positivity
        have hsm := eqbasin_rate Q.basin.pos Q.close Q.near
        refine rate_step (L := 2 * σ * squareRate σ L B κ Lc) Q.basin.radius hσ (by positivity) ?_ (dist2_nonneg _ _) k
          (hrate (.inl (by omega))) (by rw [e]; exact hquad)
        have := mul_le_mul_of_nonneg_left hsm (show 0 ≤ 2 * σ by linarith)
        linarith
      · rw [hbv]
        refine ⟨hin, ?_⟩
        obtain ⟨h1, h2⟩ := legal_stops hleg k it .satisfiedFirstOrderTol hit (fun l => hs)
        rintro (hlt | hne)
        · omega
        · exact absurd h2 hne
    refine ⟨fun it' hit' => ?_, hdist⟩
    have hl : it'.lambda ≤ 0 := by
      have hs' := hlk k it hit
      rcases hcase with ⟨hs, -⟩ | ⟨hs, -⟩
      · rw [hs] at hs'
        rw [hs'.2 it'.lambda (by rw [hit']; rfl)]
        simp only [real_cmax]
        refine max_le (mul_nonpos_of_nonpos_of_nonneg hlk0 ?_) hmlam
        split
        · exact hv'.lambdaDecreaseOnSuccess.1
        · exact hv'.lambdaDecreaseOnRestore.1
      · rw [hs] at hs'
        rw [hit'] at hs'
        cases hs'.2
    refine ⟨hl, hpenal (k + 1) it' hit' hl (fun ob hob => (hdist ob hob).1) fun j hj itp hitp => ?_⟩
    have : j = k := by omega
    subst this
    exact (ih1 itp hitp).2

/-- **C126.** Equality constraints but no inequality constraints, no damping, default retraction, a start within a basin of a point
where all costs and constraints vanish, and an initial penalty of at most `σ² / (2 Lc)`: the penalty is never raised, every iteration
tries the full step and nothing else and accepts it unless the first-order test ends the run; each accepted step squares the
distance to the solution (times `squareRate`), so after `k` of them it is at most `ρ (1/4)^(2^k - 1)`. -/
theorem C126_quadratic (env : Env D D ℝ) (hE : NSContract env.NE) (hr : env.retraction = none) (hp : WellPosed env.p D)
    (hi : env.p.ineq = []) (he : env.p.eqs ≠ []) (xs : Fin D → ℝ) (ρ σ L B κ Lc : ℝ) (Q : EqBasin env.p xs ρ σ L B κ Lc)
    (prm : NLSParams ℝ) (hpen : 0 < prm.equalityPenaltyInitial) (hcap : prm.equalityPenaltyInitial * Lc ≤ σ ^ 2 / 2)
    (hlam : prm.lambdaInitial ≤ 0) (x0 : Fin D → ℝ) (hx0 : dist2 x0 xs ≤ ρ) (o o' : env.Obj)
    (out : NLSOutputs ℝ) (calls : List (NLSIteration ℝ)) (h : solve env prm x0 o = .ok (o', out, calls)) :
    (∀ it ∈ out.iterations, it.penalty = prm.equalityPenaltyInitial ∧ it.lambda ≤ 0 ∧
      ∃ st, it.lineSearchSteps = [st] ∧ st.alpha = 1) ∧
    (∀ (k : Nat) it a b, out.iterations[k]? = some it → After env prm x0 o k a → After env prm x0 o (k + 1) b →
      (it.stepResult = .success ∧ dist2 b.vars xs ≤ squareRate σ L B κ Lc * dist2 a.vars xs ^ 2 ∧
        dist2 b.vars xs ≤ 1 / 4 * dist2 a.vars xs) ∨
      (it.stepResult = .firstOrderSatisfied ∧ k + 1 = out.iterations.length ∧ b.vars = a.vars)) ∧
    (∀ k, k < out.iterations.length → ∀ a, After env prm x0 o k a → dist2 a.vars xs ≤ ρ * (1 / 4) ^ (2 ^ k - 1)) ∧
    (out.termination ≠ .satisfiedFirstOrderTol →
      dist2 o'.vars xs ≤ ρ * (1 / 4) ^ (2 ^ out.iterations.length - 1)) := by
  have hrun := eqbasin_run env hE hr hp hi he Q prm hpen hcap hlam x0 hx0 o o' out calls h
  obtain ⟨hex, hfirst, hlast⟩ := C38_after env prm x0 o o' out calls h
  have hleg := C87_solve env prm x0 o o' out calls h
  refine ⟨?_, ?_, ?_, ?_⟩
  · intro it hm
    obtain ⟨k, hk, hget⟩ := List.getElem_of_mem hm
    have hit : out.iterations[k]? = some it := by rw [List.getElem?_eq_getElem hk, hget]
    obtain ⟨a, ha, _⟩ := hex k (by omega)
    obtain ⟨b, hb, _⟩ := hex (k + 1) (by omega)
    obtain ⟨h1, h2⟩ := hrun k (by omega)
    obtain ⟨hl, hpk⟩ := h1 it hit
    obtain ⟨-, ⟨st, hs1, hs2, -⟩, -⟩ := eqbasin_iteration env hE hr hp hi he Q prm x0 o o' out calls h k it hit hl
      (by rw [hpk]; exact hcap) a b ha hb (h2 a ha).1
    exact ⟨hpk, hl, st, hs1, hs2⟩
  · intro k it a b hit ha hb
    have hk := lt_of_getElem? hit
    obtain ⟨h1, h2⟩ := hrun k (by omega)
    obtain ⟨hl, hpk⟩ := h1 it hit
    obtain ⟨-, -, -, hcase⟩ := eqbasin_iteration env hE hr hp hi he Q prm x0 o o' out calls h k it hit hl
      (by rw [hpk]; exact hcap) a b ha hb (h2 a ha).1
    rcases hcase with ⟨hs, hq⟩ | ⟨hs, hbv, -⟩
    · exact .inl ⟨hs, hq⟩
    · exact .inr ⟨hs, (legal_stops hleg k it .satisfiedFirstOrderTol hit (fun l => hs)).1, hbv⟩
  · intro k hk a ha
    exact ((hrun k (by omega)).2 a ha).2 (.inl hk)
  · intro hne
    obtain ⟨e, hea, _⟩ := hex _ le_rfl
    rw [← hlast e hea]
    exact ((hrun _ le_rfl).2 e hea).2 (.inr hne)

/-- **C126** (the result). Such a run ends for one of four reasons, and if it is a tolerance the result is as close as the tolerance
says, and after the absolute tolerance it violates the constraints by less than that. -/
theorem C126_result (env : Env D D ℝ) (hE : NSContract env.NE) (hr : env.retraction = none) (hp : WellPosed env.p D)
    (hi : env.p.ineq = []) (he : env.p.eqs ≠ []) (xs : Fin D → ℝ) (ρ σ L B κ Lc : ℝ) (Q : EqBasin env.p xs ρ σ L B κ Lc)
    (prm : NLSParams ℝ) (hpen : 0 < prm.equalityPenaltyInitial) (hcap : prm.equalityPenaltyInitial * Lc ≤ σ ^ 2 / 2)
    (hlam : prm.lambdaInitial ≤ 0) (hrel : prm.relativeExitTol ≤ 2 / 25) (x0 : Fin D → ℝ) (hx0 : dist2 x0 xs ≤ ρ) (o o' : env.Obj)
    (out : NLSOutputs ℝ) (calls : List (NLSIteration ℝ)) (h : solve env prm x0 o = .ok (o', out, calls)) :
    match out.termination with
    | .satisfiedAbsoluteTol => (3 / 4 * σ * dist2 o'.vars xs) ^ 2 ≤ 2 * prm.absoluteExitTol
    | .satisfiedFirstOrderTol => (4 / 5 * σ * dist2 o'.vars xs) ^ 2 ≤ prm.absoluteFirstDerivativeTol
    | .maxIterations => (out.iterations.length : Int) = prm.maxIterations
    | .userCallback => env.callback ≠ none
    | _ => False := by
  have hrun := eqbasin_run env hE hr hp hi he Q prm hpen hcap hlam x0 hx0 o o' out calls h
  obtain ⟨hex, hfirst, hlast⟩ := C38_after env prm x0 o o' out calls h
  have hleg := C87_solve env prm x0 o o' out calls h
  rcases legal_end hleg with ht | ⟨ht, hset⟩ | ⟨ht, hset⟩ | ⟨it, l, hit, hstop⟩
  · rw [ht]
    have := (legal_counts hleg).2.1 ht
    simpa using this
  · obtain ⟨S, T, W, hv⟩ := solve_view h
    have hmlam : prm.minLambda ≤ 0 := le_trans hv.prmOk.lambdaInitial.1 hlam
    obtain ⟨e, hea, _⟩ := hex _ le_rfl
    have hd := ((hrun _ le_rfl).2 e hea).1
    rw [hlast e hea] at hd
    refine absurd ht (not_indefinite_at env hE hp prm x0 o o' out calls h (σ ^ 2) (pow_pos Q.basin.pos 2) fun d => ?_)
    refine (Q.basin.stretch _ hd d).trans ?_
    unfold curvature
    rw [max_eq_right hmlam, zero_mul, add_zero]
  · rw [ht]; exact hset
  · have hk := lt_of_getElem? hit
    obtain ⟨a, ha, _⟩ := hex (out.iterations.length - 1) (by omega)
    obtain ⟨b, hb, _⟩ := hex (out.iterations.length - 1 + 1) (by omega)
    obtain ⟨h1, h2⟩ := hrun (out.iterations.length - 1) (by omega)
    obtain ⟨hl, hpk⟩ := h1 it hit
    obtain ⟨-, ⟨st, hs1, hs2, hs3, hs4, hs5, hs6⟩, hi2, hcase⟩ := eqbasin_iteration env hE hr hp hi he Q prm x0 o o' out calls h
      _ it hit hl (by rw [hpk]; exact hcap) a b ha hb (h2 a ha).1
    have hb' : b.vars = o'.vars := by
      rw [show out.iterations.length - 1 + 1 = out.iterations.length by omega] at hb
      exact hlast b hb
    have hlst : it.lineSearchSteps.getLast? = some st := by rw [hs1]; rfl
    cases ht : out.termination with
    | satisfiedAbsoluteTol =>
      rw [ht] at hstop
      obtain ⟨hs, last, hl, hlt⟩ := hstop
      rw [hlst] at hl
      cases hl
      rw [← hb']
      have h3 := hs6 hs
      have h4 : st.errors.f < prm.absoluteExitTol := by
        unfold Errors.lInfinity at hlt
        simp only [real_cmax] at hlt
        exact lt_of_le_of_lt (le_max_left _ _) hlt
      show _ ≤ _
      linarith
    | satisfiedRelativeTol =>
      rw [ht] at hstop
      obtain ⟨hs, last, hl, _, hgt⟩ := hstop
      rw [hlst] at hl
      cases hl
      have : it.errorsInitial.total it.penalty * (23 / 25) ≤ it.errorsInitial.total it.penalty * (1 - prm.relativeExitTol) :=
        mul_le_mul_of_nonneg_left (by linarith) hi2
      linarith
    | satisfiedFirstOrderTol =>
      rw [ht] at hstop
      rcases hcase with ⟨hs, -⟩ | ⟨_, hbv, hq⟩
      · rw [show it.stepResult = .firstOrderSatisfied from hstop] at hs; cases hs
      · rw [← hb', hbv]; exact hq
    | maxLambda =>
      rw [ht] at hstop
      rcases hcase with ⟨hs, -⟩ | ⟨hs, -⟩ <;> rcases hstop.1 with e | e <;> rw [e] at hs <;> cases hs
    | maxIterations => rw [ht] at hstop; exact hstop.elim
    | qpIndefinite => rw [ht] at hstop; exact hstop.elim
    | userCallback => rw [ht] at hstop; exact hstop.elim

/-- **C126** (few iterations). If `max_iterations` exceeds `m` and the bounds on cost and violation that follow from the rate are below
`absolute_exit_tol` after `m + 1` steps, the run makes at most `m + 1` iterations and does not end with `MAX_ITERATIONS`. -/
theorem C126_finishes (env : Env D D ℝ) (hE : NSContract env.NE) (hr : env.retraction = none) (hp : WellPosed env.p D)
    (hi : env.p.ineq = []) (he : env.p.eqs ≠ []) (xs : Fin D → ℝ) (ρ σ L B κ Lc : ℝ) (Q : EqBasin env.p xs ρ σ L B κ Lc)
    (prm : NLSParams ℝ) (hpen : 0 < prm.equalityPenaltyInitial) (hcap : prm.equalityPenaltyInitial * Lc ≤ σ ^ 2 / 2)
    (hlam : prm.lambdaInitial ≤ 0) (x0 : Fin D → ℝ) (hx0 : dist2 x0 xs ≤ ρ) (o o' : env.Obj)
    (out : NLSOutputs ℝ) (calls : List (NLSIteration ℝ)) (h : solve env prm x0 o = .ok (o', out, calls)) (m : Nat)
    (hm : (m : Int) < prm.maxIterations)
    (htol : 1 / 2 * (41 / 32 * (L + B * κ * Lc) * (ρ * (1 / 4) ^ (2 ^ m - 1)) ^ 2) ^ 2 < prm.absoluteExitTol)
    (htol' : 25 / 32 * Lc * (ρ * (1 / 4) ^ (2 ^ m - 1)) ^ 2 < prm.absoluteExitTol) :
    out.iterations.length ≤ m + 1 ∧ out.termination ≠ .maxIterations := by
  have hrun := eqbasin_run env hE hr hp hi he Q prm hpen hcap hlam x0 hx0 o o' out calls h
  obtain ⟨hex, hfirst, hlast⟩ := C38_after env prm x0 o o' out calls h
  have hleg := C87_solve env prm x0 o o' out calls h
  obtain ⟨hB0, hκ0, hLc0⟩ := Q.nonneg
  have hL0 := Q.basin.nonneg
  by_cases hlen : m < out.iterations.length
  · obtain ⟨it, hit⟩ : ∃ it, out.iterations[m]? = some it := ⟨_, List.getElem?_eq_getElem hlen⟩
    obtain ⟨a, ha, _⟩ := hex m (by omega)
    obtain ⟨b, hb, _⟩ := hex (m + 1) (by omega)
    obtain ⟨h1, h2⟩ := hrun m (by omega)
    obtain ⟨hl, hpk⟩ := h1 it hit
    obtain ⟨-, ⟨st, hs1, hs2, hs3, hs4, hs5, hs6⟩, hi2, hcase⟩ := eqbasin_iteration env hE hr hp hi he Q prm x0 o o' out calls h
      _ it hit hl (by rw [hpk]; exact hcap) a b ha hb (h2 a ha).1
    have hd := (h2 a ha).2 (.inl hlen)
    have hlst : it.lineSearchSteps.getLast? = some st := by rw [hs1]; rfl
    have hfin : ∃ t', t' ≠ NLSTermination.maxIterations ∧ ∀ l, Stops prm it l t' := by
      rcases hcase with ⟨hs, -⟩ | ⟨hs, -⟩
      · refine ⟨.satisfiedAbsoluteTol, by simp, fun l => ⟨hs, st, hlst, ?_⟩⟩
        have h3 : dist2 a.vars xs ^ 2 ≤ (ρ * (1 / 4) ^ (2 ^ m - 1)) ^ 2 := pow_le_pow_left₀ (dist2_nonneg _ _) hd 2
        have h4 : 41 / 32 * (L + B * κ * Lc) * dist2 a.vars xs ^ 2
            ≤ 41 / 32 * (L + B * κ * Lc) * (ρ * (1 / 4) ^ (2 ^ m - 1)) ^ 2 := mul_le_mul_of_nonneg_left h3 (by positivity)
        have h5 := pow_le_pow_left₀ (by positivity) h4 2
        have h6 : st.errors.f < prm.absoluteExitTol := by linarith
        have h7 : 25 / 32 * Lc * dist2 a.vars xs ^ 2 ≤ 25 / 32 * Lc * (ρ * (1 / 4) ^ (2 ^ m - 1)) ^ 2 :=
          mul_le_mul_of_nonneg_left h3 (by positivity)
        unfold Errors.lInfinity
        simp only [real_cmax]
        exact max_lt h6 (by linarith)
      · exact ⟨.satisfiedFirstOrderTol, by simp, fun l => hs⟩
    obtain ⟨t', hne, hst⟩ := hfin
    obtain ⟨h3, h4⟩ := legal_stops hleg m it t' hit hst
    exact ⟨by omega, by rw [h4]; exact hne⟩
  · refine ⟨by omega, ?_⟩
    intro ht
    have := (legal_counts hleg).2.1 ht
    omega

/-- **C126** (the direction). Whatever the penalty and the line search do: in an undamped iteration that starts in the basin the full
step would lead to within `squareRate` times the squared distance. -/
theorem C126_direction (env : Env D D ℝ) (hE : NSContract env.NE) (hr : env.retraction = none) (hp : WellPosed env.p D)
    (hi : env.p.ineq = []) (he : env.p.eqs ≠ []) (xs : Fin D → ℝ) (ρ σ L B κ Lc : ℝ) (Q : EqBasin env.p xs ρ σ L B κ Lc)
    (prm : NLSParams ℝ) (x0 : Fin D → ℝ) (o o' : env.Obj) (out : NLSOutputs ℝ)
    (calls : List (NLSIteration ℝ)) (h : solve env prm x0 o = .ok (o', out, calls)) (k : Nat) (it : NLSIteration ℝ)
    (hit : out.iterations[k]? = some it) (hlam : it.lambda ≤ 0)
    (a b : env.Obj) (ha : After env prm x0 o k a) (hb : After env prm x0 o (k + 1) b) (hin : dist2 a.vars xs ≤ ρ) :
    dist2 (fun i => a.vars i + b.dx i) xs ≤ squareRate σ L B κ Lc * dist2 a.vars xs ^ 2 :=
  (eqbasin_direction env hE hp hi he Q prm x0 o o' out calls h k it hit hlam a b ha hb hin
    (null_space_step env hE hr hp hi he prm x0 o o' out calls h k it hit a b ha hb).rows).2

end MiniOpt.Props
