import Verif.Spec.BoundedSpec
import Verif.Props.EqualityConvergence

/-!
# C128: bounds, or linear solves that are not exact, and a smooth cost
-/

set_option autoImplicit false

namespace MiniOpt.Props

open MiniOpt.Spec MiniOpt.NLS

/-- The linear term along the returned `x`, when zero violates no inequality constraint by more than `1e-9`. -/
theorem qp_descent_near {N M : Nat} (p : QP N M 0 ℝ) (v : Blocks N M 0 ℝ) (hz : ∀ m, 0 < v.z m)
    (hb : ∀ m, -1e-9 ≤ (p.con m).b) : ∑ i, p.c i * v.x i ≤ - bil p v.x v.x + missed p v := by
  have e := linear_term p v v.x
  have e0 : ∑ k : Fin 0, v.y k * (eqVal p v.x k - p.b k) = 0 := Finset.sum_eq_zero fun k _ => k.elim0
  have e3 : ∑ m, v.z m * (ineqVal p v.x m - (p.con m).b)
      ≤ (∑ m, (ineqVal p v.x m - v.s m) * v.z m) + (∑ m, v.s m * v.z m) + 1e-9 * ∑ m, v.z m := by
    rw [← Finset.sum_add_distrib, Finset.mul_sum, ← Finset.sum_add_distrib]
    refine Finset.sum_le_sum fun m _ => ?_
    have := mul_le_mul_of_nonneg_left (hb m) (hz m).le
    linarith
  have b1 := (abs_le.mp (abs_sum_mul_le_l2 (gradLagrangian p v) v.x)).2
  have b3 := (abs_le.mp (abs_sum_mul_le_l2 (fun m => ineqVal p v.x m - v.s m) v.z)).2
  rw [e]
  unfold missed
  rw [e0]; linarith

variable {D : Nat}

/-- What is used about one logged iteration of a problem without equality constraints. -/
structure BoundStep (env : Env D D ℝ) (ε : ℝ) (x dx : Fin D → ℝ) (it : NLSIteration ℝ) : Prop where
  slope : ∀ pen, it.directionalDerivatives.total pen = costSlope env.p x dx
  dF : it.directionalDerivatives.dF = costSlope env.p x dx
  linf : it.directionalDerivatives.lInfinity = |costSlope env.p x dx|
  descent : costSlope env.p x dx ≤ - curvature env.p x it.lambda dx + ε
  initial : ∀ pen, it.errorsInitial.total pen = costAt env.p x
  trial : ∀ st ∈ it.lineSearchSteps, ∀ pen, st.errors.total pen = costAt env.p (fun i => x i + st.alpha * dx i)

theorem bound_step (env : Env D D ℝ) (hr : env.retraction = none) (hp : WellPosed env.p D) (he : env.p.eqs = [])
    (prm : NLSParams ℝ) (x0 : Fin D → ℝ) (o o' : env.Obj) (out : NLSOutputs ℝ)
    (calls : List (NLSIteration ℝ)) (h : solve env prm x0 o = .ok (o', out, calls)) (k : Nat) (it : NLSIteration ℝ)
    (hit : out.iterations[k]? = some it) (a b : env.Obj) (ha : After env prm x0 o k a) (hb : After env prm x0 o (k + 1) b)
    (hfeas : ∀ c ∈ env.p.ineq, -1e-9 ≤ boundAt c a.vars) (ε : ℝ)
    (hgap : ∀ (s' : IPState D env.p.M env.p.K ℝ) hcon, b.solver = .ip s' → missed (b.qp.typed hcon) s'.v ≤ ε) :
    BoundStep env ε a.vars b.dx it := by
  have hmem := List.mem_of_getElem? hit
  obtain ⟨h1, h2, h3⟩ := C38_direction env prm x0 o o' out calls h k it hit a b ha hb
  obtain ⟨f1, f2, f3, f4, f5, f6⟩ := linearize_facts hp h1
  obtain ⟨-, e2, -⟩ := C39_logged_errors env hp.consistent prm x0 o o' out calls h k it hit a b ha hb
  have hK : env.p.K = 0 := by simp [Problem.K, he]
  have noK : ∀ {P : Prop}, Fin env.p.K → P := fun k => absurd (lt_of_lt_of_eq k.isLt hK) (Nat.not_lt_zero _)
  have hd := costDerivative_real b.qp b.dx
  rw [← h2] at hd
  have hdE : it.directionalDerivatives.dEquality = 0 := by
    rw [hd.2]
    exact Finset.sum_eq_zero fun k _ => noK k
  have hdF : it.directionalDerivatives.dF = costSlope env.p a.vars b.dx := by rw [hd.1, f2]; rfl
  have htot : ∀ pen, it.directionalDerivatives.total pen = costSlope env.p a.vars b.dx := by
    intro pen; unfold DirectionalDerivatives.total; rw [hdE, hdF]; ring
  have hviol : ∀ x : Fin D → ℝ, violationAt env.p x = 0 := by
    intro x; unfold violationAt; rw [he]; rfl
  refine ⟨htot, hdF, ?_, ?_, ?_, ?_⟩
  · unfold DirectionalDerivatives.lInfinity
    rw [hdE, hdF]
    simp only [real_cmax, real_abs, abs_zero]
    exact max_eq_left (abs_nonneg _)
  · obtain ⟨q, hq⟩ := (C45_which_solver env prm x0 o o' out calls h it hmem).2 (fun hc => hc.2 he)
    obtain ⟨s', hs⟩ := ip_solver env prm x0 o o' out calls h k it hit b hb q hq
    obtain ⟨hcon, s, hsol, hdx⟩ := ip_after env prm x0 o o' out calls h k it hit b hb q hq s' hs
    obtain ⟨g1, g2, g3, g4, g5, g6, g7, g8, g9, g10, g11⟩ :=
      ip_facts env hp prm x0 o o' out calls h k it hit a b ha hb q hq s' hs hcon
    have key : ∀ (K : Nat) (hK : K = 0) (p : QP D env.p.M K ℝ) (v : Blocks D env.p.M K ℝ), (∀ m, 0 < v.z m) →
        (∀ m, -1e-9 ≤ (p.con m).b) → ∑ i, p.c i * v.x i ≤ - bil p v.x v.x + missed p v := by
      intro K hK; subst hK; exact qp_descent_near
    have hq := key env.p.K hK (b.qp.typed hcon) s'.v (fun m => (g1 m).1) (fun m => by
      rw [g10 m]; exact hfeas _ (List.get_mem _ _))
    rw [g7, g8, ← g2] at hq
    exact hq.trans (by linarith [hgap s' hcon hs])
  · intro pen
    rw [f1]; unfold Errors.total errorsAt; simp only [hviol]; ring
  · intro st hst pen
    obtain ⟨y, hmv, herr⟩ := e2 st hst
    unfold Moves at hmv
    rw [hr] at hmv
    obtain ⟨_, hy⟩ := hmv
    have : y = fun i => a.vars i + st.alpha * b.dx i := by rw [hy]; funext i; simp [mul_comm]
    rw [herr, this]; unfold Errors.total errorsAt; simp only [hviol]; ring

/-- The iterates violate no bound by more than `1e-9`. -/
theorem near_bounds (env : Env D D ℝ) (hr : env.retraction = none)
    (hbox : ∃ w : Fin D → ℝ, ∀ c ∈ env.p.ineq, 0 ≤ boundAt c w) (prm : NLSParams ℝ) (x0 : Fin D → ℝ)
    (hx0 : ∀ c ∈ env.p.ineq, -1e-9 ≤ boundAt c x0) (o o' : env.Obj) (out : NLSOutputs ℝ)
    (calls : List (NLSIteration ℝ)) (h : solve env prm x0 o = .ok (o', out, calls)) (k : Nat)
    (hk : k ≤ out.iterations.length) (a : env.Obj) (ha : After env prm x0 o k a) :
    ∀ c ∈ env.p.ineq, -1e-9 ≤ boundAt c a.vars := by
  intro c hc
  have h1 := (C49_bounds env hr hbox prm x0 o o' out calls h c hc).1 k hk a ha
  rwa [min_eq_right (hx0 c hc)] at h1

/-- **C128** (one iteration). No equality constraints, default retraction, a non-empty box and a start that violates no bound by more
than `1e-9`: let the cost be smooth with constant `L` where it is not above the cost of the start, let the damped Gauss-Newton
matrix of a logged iteration be at least `μ > 0`, and let its QP be solved up to half of `absolute_first_derivative_tol`. Then every
trial step that is refused is longer than `1.3332 μ / L`; the step is accepted, or the slope is below its tolerance, or all trial
steps were refused, in which case there are too few line search iterations; and an accepted step is at least `shortestStep` long. -/
theorem C128_line_search (env : Env D D ℝ) (hr : env.retraction = none) (hp : WellPosed env.p D) (he : env.p.eqs = [])
    (hbox : ∃ w : Fin D → ℝ, ∀ c ∈ env.p.ineq, 0 ≤ boundAt c w) (prm : NLSParams ℝ) (x0 : Fin D → ℝ)
    (hx0 : ∀ c ∈ env.p.ineq, -1e-9 ≤ boundAt c x0) (o o' : env.Obj) (out : NLSOutputs ℝ)
    (calls : List (NLSIteration ℝ)) (h : solve env prm x0 o = .ok (o', out, calls)) (L μ : ℝ)
    (hs : Smooth env.p (Below env.p x0) L) (hμ : 0 < μ) (ht : 0 < prm.absoluteFirstDerivativeTol)
    (k : Nat) (it : NLSIteration ℝ) (hit : out.iterations[k]? = some it) (a b : env.Obj) (ha : After env prm x0 o k a)
    (hb : After env prm x0 o (k + 1) b)
    (hgap : ∀ (s' : IPState D env.p.M env.p.K ℝ) hcon, b.solver = .ip s' →
      missed (b.qp.typed hcon) s'.v ≤ prm.absoluteFirstDerivativeTol / 2)
    (hc : ∀ d, μ * ∑ i, d i ^ 2 ≤ curvature env.p a.vars it.lambda d) :
    (∀ (j : Nat) st, it.lineSearchSteps[j]? = some st →
      j + 1 < it.lineSearchSteps.length ∨ it.stepResult = .maxIterations → safeStep L (2 / 3 * μ) < st.alpha) ∧
    (it.stepResult = .success ∨ it.stepResult = .firstOrderSatisfied ∨ it.stepResult = .maxIterations) ∧
    (it.stepResult = .success → ∃ st, it.lineSearchSteps.getLast? = some st ∧ shortestStep prm L (2 / 3 * μ) ≤ st.alpha) ∧
    (it.stepResult = .maxIterations → safeStep L (2 / 3 * μ) < stepRatio prm ^ prm.maxLineSearchIterations.toNat) := by
  have hmem := List.mem_of_getElem? hit
  have hk := lt_of_getElem? hit
  have hx := stays_below env hp.consistent he prm x0 o o' out calls h k hk.le a ha
  have hf := bound_step env hr hp he prm x0 o o' out calls h k it hit a b ha hb
    (near_bounds env hr hbox prm x0 hx0 o o' out calls h k hk.le a ha) _ hgap
  have hL := hs.pos
  refine line_search_model env prm x0 o o' out calls h L (2 / 3 * μ) hL (by linarith) k it hit fun hn => ?_
  rw [hf.linf] at hn
  have hge := not_lt.mp hn
  have hcn := curvature_nonneg env.p a.vars it.lambda b.dx
  have hde := hf.descent
  have hneg : costSlope env.p a.vars b.dx < 0 := by
    rcases lt_or_ge (costSlope env.p a.vars b.dx) 0 with h0 | h0
    · exact h0
    · rw [abs_of_nonneg h0] at hge
      linarith
  rw [abs_of_neg hneg] at hge
  rw [hf.slope]
  refine ⟨hneg, fun st hst h0 h1 => ?_⟩
  rw [hf.trial st hst, hf.initial]
  refine (hs.upper _ hx b.dx st.alpha h0.le h1).trans ?_
  have h2 := hc b.dx
  have key : ∑ i, b.dx i ^ 2 ≤ -costSlope env.p a.vars b.dx / (2 / 3 * μ) := by
    rw [le_div_iff₀ (by linarith)]; linarith
  have hL' : 0 ≤ L / 2 * st.alpha ^ 2 := mul_nonneg (by linarith) (sq_nonneg _)
  have h3 := mul_le_mul_of_nonneg_left key hL'
  have e : L / 2 * st.alpha ^ 2 * (-costSlope env.p a.vars b.dx / (2 / 3 * μ))
      = -(L / (2 * (2 / 3 * μ)) * st.alpha ^ 2 * costSlope env.p a.vars b.dx) := by
    field_simp
  linarith

/-- The decrease of an accepted step. -/
theorem realised_bounded (env : Env D D ℝ) (hr : env.retraction = none) (hp : WellPosed env.p D) (he : env.p.eqs = [])
    (hbox : ∃ w : Fin D → ℝ, ∀ c ∈ env.p.ineq, 0 ≤ boundAt c w) (prm : NLSParams ℝ) (x0 : Fin D → ℝ)
    (hx0 : ∀ c ∈ env.p.ineq, -1e-9 ≤ boundAt c x0) (o o' : env.Obj) (out : NLSOutputs ℝ)
    (calls : List (NLSIteration ℝ)) (h : solve env prm x0 o = .ok (o', out, calls)) (L μ : ℝ)
    (hs : Smooth env.p (Below env.p x0) L) (hcv : Curved env.p (Below env.p x0) prm.minLambda μ)
    (ht : 0 < prm.absoluteFirstDerivativeTol)
    (hgap : ∀ k, k < out.iterations.length → ∀ b, After env prm x0 o (k + 1) b →
      ∀ (s' : IPState D env.p.M env.p.K ℝ) hcon, b.solver = .ip s' →
        missed (b.qp.typed hcon) s'.v ≤ prm.absoluteFirstDerivativeTol / 2)
    (it : NLSIteration ℝ) (hit : it ∈ out.iterations) :
    (it.stepResult = .success ∨ it.stepResult = .firstOrderSatisfied ∨ it.stepResult = .maxIterations) ∧
    (it.stepResult = .success → shortestStep prm L (2 / 3 * μ) * |it.directionalDerivatives.dF| ≤ realised it ∧
      prm.absoluteFirstDerivativeTol ≤ |it.directionalDerivatives.dF|) ∧
    (it.stepResult = .maxIterations → safeStep L (2 / 3 * μ) < stepRatio prm ^ prm.maxLineSearchIterations.toNat) ∧
    (it.stepResult = .maxIterations → 0 < it.lambda → 10 * it.lambda ≤ 75000 / 9999 * L) := by
  obtain ⟨k, hk⟩ := List.mem_iff_getElem?.mp hit
  have hlt := lt_of_getElem? hk
  obtain ⟨hex, -, -⟩ := C38_after env prm x0 o o' out calls h
  obtain ⟨a, ha, -⟩ := hex k (by omega)
  obtain ⟨b, hb, -⟩ := hex (k + 1) (by omega)
  have hca := curved_at env hp.consistent he prm x0 o o' out calls h μ hcv k it hk a ha
  obtain ⟨-, h2, h3, h4⟩ := C128_line_search env hr hp he hbox prm x0 hx0 o o' out calls h L μ hs hcv.pos ht k it hk a b ha hb
    (hgap k hlt b hb) hca
  have hfs := bound_step env hr hp he prm x0 o o' out calls h k it hk a b ha hb
    (near_bounds env hr hbox prm x0 hx0 o o' out calls h k hlt.le a ha) _ (hgap k hlt b hb)
  refine ⟨h2, fun hsu => ?_, h4, fun hres hl => ?_⟩
  · obtain ⟨st, hlast, hge⟩ := h3 hsu
    obtain ⟨_, -, -, hn, -⟩ := (C40_only_last_accepted env prm x0 o o' out calls h it hit).2.mp hsu
    constructor
    · unfold realised
      rw [if_pos hsu, hlast]
      exact mul_le_mul_of_nonneg_right hge (abs_nonneg _)
    · rw [hfs.linf] at hn
      rw [hfs.dF]
      exact not_lt.mp hn
  · obtain ⟨m1, -⟩ := C128_line_search env hr hp he hbox prm x0 hx0 o o' out calls h L it.lambda hs hl ht k it hk a b ha hb
      (hgap k hlt b hb) (fun d => by
        unfold curvature
        rw [max_eq_left hl.le]
        have : 0 ≤ (env.p.costs.map fun r => ∑ k, slopeAt r a.vars d k ^ 2).sum := by
          refine List.sum_nonneg fun v hv => ?_
          obtain ⟨r, _, rfl⟩ := List.mem_map.mp hv
          exact Finset.sum_nonneg fun k _ => sq_nonneg _
        linarith)
    obtain ⟨c1, c2, c3, -⟩ := C40_alphas_any env prm x0 o o' out calls h it hit
    obtain ⟨st0, h0⟩ : ∃ s, it.lineSearchSteps[0]? = some s := ⟨_, List.getElem?_eq_getElem (by omega)⟩
    have h2 := m1 0 st0 h0 (Or.inr hres)
    rw [c3 st0 h0] at h2
    unfold safeStep at h2
    rw [← mul_div_assoc, div_lt_iff₀ hs.pos] at h2
    linarith

/-- **C128** (number of iterations). No equality constraints, default retraction, a non-empty box, a start that violates no bound
by more than `1e-9`, a smooth cost, a damped Gauss-Newton matrix bounded below, and QPs solved up to half of
`absolute_first_derivative_tol` (no matter how the linear systems were solved): let `S` be greater than `10^4 cost(x0) /
(shortestStep * tolerance)`. Then fewer than `S` steps are accepted before the last iteration; if `R` failures take the damping
beyond `max_lambda` there are at most `S (R + 1)` iterations; if there are enough line search iterations there is no failure
at all and at most `S` iterations; and if `max_lambda` is at least `lambda_failure_init` and `7.5008 L`, the solver never gives
up with `MAX_LAMBDA`. -/
theorem C128_iteration_bound (env : Env D D ℝ) (hr : env.retraction = none) (hp : WellPosed env.p D) (he : env.p.eqs = [])
    (hbox : ∃ w : Fin D → ℝ, ∀ c ∈ env.p.ineq, 0 ≤ boundAt c w) (prm : NLSParams ℝ) (x0 : Fin D → ℝ)
    (hx0 : ∀ c ∈ env.p.ineq, -1e-9 ≤ boundAt c x0) (o o' : env.Obj) (out : NLSOutputs ℝ)
    (calls : List (NLSIteration ℝ)) (h : solve env prm x0 o = .ok (o', out, calls)) (L μ : ℝ)
    (hs : Smooth env.p (Below env.p x0) L) (hcv : Curved env.p (Below env.p x0) prm.minLambda μ)
    (ht : 0 < prm.absoluteFirstDerivativeTol)
    (hgap : ∀ k, k < out.iterations.length → ∀ b, After env prm x0 o (k + 1) b →
      ∀ (s' : IPState D env.p.M env.p.K ℝ) hcon, b.solver = .ip s' →
        missed (b.qp.typed hcon) s'.v ≤ prm.absoluteFirstDerivativeTol / 2) (S : Nat)
    (hS : 10 ^ 4 * costAt env.p x0 < S * (shortestStep prm L (2 / 3 * μ) * prm.absoluteFirstDerivativeTol)) :
    (∀ R : Nat, prm.maxLambda < prm.lambdaFailureInit * 10 ^ R → out.iterations.length ≤ S * (R + 1)) ∧
    (stepRatio prm ^ prm.maxLineSearchIterations.toNat ≤ safeStep L (2 / 3 * μ) →
      out.iterations.length ≤ S ∧
      (∀ it ∈ out.iterations, it.stepResult = .success ∨ it.stepResult = .firstOrderSatisfied) ∧
      ((S : Int) < prm.maxIterations → out.termination = .satisfiedAbsoluteTol ∨ out.termination = .satisfiedRelativeTol ∨
        out.termination = .satisfiedFirstOrderTol ∨ out.termination = .userCallback)) ∧
    (prm.lambdaFailureInit ≤ prm.maxLambda → 75000 / 9999 * L ≤ prm.maxLambda → out.termination ≠ .maxLambda) := by
  obtain ⟨t0, -, t1⟩ := C76_total_decrease env hp.consistent he prm x0 o o' out calls h
  obtain ⟨V, T, W, hv⟩ := solve_view h
  have hμ' : 0 < 2 / 3 * μ := by linarith [hcv.pos]
  have hpos := shortestStep_pos hs.pos hμ' hv.prmOk.armijoSearchTau.1 (prm := prm)
  have hone := realised_bounded env hr hp he hbox prm x0 hx0 o o' out calls h L μ hs hcv ht hgap
  have hcount : ∀ k, successesBefore out.iterations k < S := by
    intro k
    have h1 := successes_sum (its := out.iterations) (m := shortestStep prm L (2 / 3 * μ) * prm.absoluteFirstDerivativeTol)
      (fun it hit hsu => by
        obtain ⟨r1, r2⟩ := (hone it hit).2.1 hsu
        exact (mul_le_mul_of_nonneg_left r2 hpos.le).trans r1) t0 k
    have h2 := (h1.trans t1).trans_lt hS
    have h3 := lt_of_mul_lt_mul_right h2 (mul_pos hpos ht).le
    exact_mod_cast h3
  refine ⟨fun R hR => count_bound env prm x0 o o' out calls h S R (fun k it _ => hcount k) hR
    (never_invalid env he prm x0 o o' out calls h ht), fun hls => ?_, fun hl1 hl2 hT => ?_⟩
  · have hres : ∀ it ∈ out.iterations, it.stepResult = .success ∨ it.stepResult = .firstOrderSatisfied := by
      intro it hit
      obtain ⟨h2, -, h4, -⟩ := hone it hit
      rcases h2 with h2 | h2 | h2
      · exact Or.inl h2
      · exact Or.inr h2
      · have := h4 h2
        linarith
    have hall : ∀ k, k + 1 ≤ out.iterations.length → successesBefore out.iterations k = k := by
      intro k
      induction k with
      | zero => intro _; rfl
      | succ k ih =>
        intro hk
        obtain ⟨it, hit⟩ : ∃ s, out.iterations[k]? = some s := ⟨_, List.getElem?_eq_getElem (by omega)⟩
        rw [successesBefore_succ hit, ih (by omega)]
        rcases hres it (List.mem_of_getElem? hit) with h2 | h2
        · rw [if_pos h2]
        · have hm := (C43_state_machine env prm x0 o o' out calls h).2 k it hit
          rw [h2] at hm
          have hm2 := hm.2
          rw [List.getElem?_eq_getElem (by omega)] at hm2
          simp at hm2
    have hlen : out.iterations.length ≤ S := by
      rcases Nat.eq_zero_or_pos out.iterations.length with h0 | h0
      · omega
      · have h1 := hcount (out.iterations.length - 1)
        rw [hall _ (by omega)] at h1
        omega
    refine ⟨hlen, hres, fun hlim => ?_⟩
    have hterm := C46_termination env prm x0 o o' out calls h
    cases hT : out.termination <;> rw [hT] at hterm <;> simp only at hterm
    all_goals first
      | (simp; done)
      | (exfalso; omega)
      | exact absurd he hterm.2.2.1
      | (exfalso
         obtain ⟨it, hlast, hx⟩ := hterm
         have hr2 := hx.1
         rw [List.getLast?_eq_getElem?] at hlast
         rcases hres it (List.mem_of_getElem? hlast) with h2 | h2 <;> rw [h2] at hr2 <;> simp at hr2)
  · have hterm := C46_termination env prm x0 o o' out calls h
    rw [hT] at hterm
    obtain ⟨it, hlast, hres, -, hgt⟩ := hterm
    rw [List.getLast?_eq_getElem?] at hlast
    obtain ⟨h2, -, -, h4⟩ := hone it (List.mem_of_getElem? hlast)
    have hres' : it.stepResult = .maxIterations := by
      rcases hres with hres | hres
      · exact hres
      · rw [hres] at h2; simp at h2
    have hlam : it.lambda * 10 ≤ 75000 / 9999 * L := by
      rcases lt_or_ge 0 it.lambda with hl | hl
      · linarith [h4 hres' hl]
      · have := hs.pos; linarith
    cases hst : stateBefore out.iterations (out.iterations.length - 1) <;> rw [hst] at hgt
    · simp only [raisedLambda, real_cmax, real_lit] at hgt
      push_cast at hgt
      have := max_le hl1 (hlam.trans hl2)
      linarith
    · simp only [raisedLambda, real_lit] at hgt
      push_cast at hgt
      linarith

/-- **C128** (when QPs are solved). If the QP of an iteration was solved to its tolerances, what is missed is at most those
tolerances times the sizes of the step and of the multipliers. -/
theorem C128_solved (env : Env D D ℝ) (hp : WellPosed env.p D) (he : env.p.eqs = [])
    (prm : NLSParams ℝ) (x0 : Fin D → ℝ) (o o' : env.Obj)
    (out : NLSOutputs ℝ) (calls : List (NLSIteration ℝ)) (h : solve env prm x0 o = .ok (o', out, calls))
    (k : Nat) (it : NLSIteration ℝ) (hit : out.iterations[k]? = some it) (a b : env.Obj)
    (ha : After env prm x0 o k a) (hb : After env prm x0 o (k + 1) b) (q : QPOutputs ℝ)
    (hq : it.qpOutputs = .interiorPoint q) (hT : q.termination = .satisfiedKktTol)
    (s' : IPState D env.p.M env.p.K ℝ) (hs : b.solver = .ip s')
    (hcon : ∀ i, 0 ≤ (b.qp.con i).var ∧ (b.qp.con i).var < (D : Int)) :
    missed (b.qp.typed hcon) s'.v ≤ env.p.M * (1 / 10 ^ 6)
      + prm.terminationKktTol * (l2 b.dx + l2 s'.v.z) + 1e-9 * ∑ m, s'.v.z m := by
  have hg := C68_solved_gap env hp prm x0 o o' out calls h k it hit a b ha hb q hq hT s' hs hcon
  have hK : env.p.K = 0 := by simp [Problem.K, he]
  have hsq : Real.sqrt (env.p.K : ℝ) = 0 := by rw [hK]; simp
  unfold qpGap at hg
  rw [hsq] at hg
  unfold missed
  linarith

/-- **C128** (exact solves without bounds). Nothing is missed if there are no inequality constraints either and the
linear solver is exact. -/
theorem C128_exact (env : Env D D ℝ) (hE : LDLTContract env.E) (hp : WellPosed env.p D) (he : env.p.eqs = [])
    (hi : env.p.ineq = []) (prm : NLSParams ℝ) (x0 : Fin D → ℝ) (o o' : env.Obj)
    (out : NLSOutputs ℝ) (calls : List (NLSIteration ℝ)) (h : solve env prm x0 o = .ok (o', out, calls))
    (k : Nat) (it : NLSIteration ℝ) (hit : out.iterations[k]? = some it) (a b : env.Obj)
    (ha : After env prm x0 o k a) (hb : After env prm x0 o (k + 1) b) (μ : ℝ) (hμ : 0 < μ)
    (hc : ∀ d, μ * ∑ i, d i ^ 2 ≤ curvature env.p a.vars it.lambda d)
    (s' : IPState D env.p.M env.p.K ℝ) (hs : b.solver = .ip s')
    (hcon : ∀ i, 0 ≤ (b.qp.con i).var ∧ (b.qp.con i).var < (D : Int)) :
    missed (b.qp.typed hcon) s'.v = 0 := by
  have hM : env.p.M = 0 := by simp [Problem.M, hi]
  have hK : env.p.K = 0 := by simp [Problem.K, he]
  have noK : ∀ {P : Prop}, Fin env.p.K → P := fun k => absurd (lt_of_lt_of_eq k.isLt hK) (Nat.not_lt_zero _)
  have noM : ∀ {P : Prop}, Fin env.p.M → P := fun m => absurd (lt_of_lt_of_eq m.isLt hM) (Nat.not_lt_zero _)
  obtain ⟨q, hq⟩ := (C45_which_solver env prm x0 o o' out calls h it (List.mem_of_getElem? hit)).2 (fun hc => hc.2 he)
  obtain ⟨hcon', s, hsol, hdx⟩ := ip_after env prm x0 o o' out calls h k it hit b hb q hq s' hs
  obtain ⟨-, -, -, -, -, -, -, g8, -⟩ :=
    ip_facts env hp prm x0 o o' out calls h k it hit a b ha hb q hq s' hs hcon
  have hpd : PosDefG (b.qp.typed hcon) := by
    intro x hx
    have h1 : bil (b.qp.typed hcon) x x = _ := g8 x
    have hn : 0 < ∑ i, x i ^ 2 := by
      obtain ⟨i, hdi⟩ := Function.ne_iff.mp hx
      have hdi' : x i ≠ 0 := hdi
      exact Finset.sum_pos' (fun i _ => sq_nonneg _) ⟨i, Finset.mem_univ _, by positivity⟩
    have h2 := hc x
    rw [← h1] at h2
    exact lt_of_lt_of_le (mul_pos hμ hn) h2
  have hind : IndependentRows (b.qp.typed hcon) := by
    intro y _
    funext k
    exact noK k
  obtain ⟨-, hgrad, -⟩ := one_iteration_of_zero hM env.E hE _ hpd hind (qpParams env.p prm)
    (by simp only [qpParams, QPParams.default, real_lit]; norm_num) _ (setupState_WF s) _ hsol
  have e1 : l2 (gradLagrangian (b.qp.typed hcon) s'.v) = 0 := l2_zero hgrad
  have e2 : ∑ m, s'.v.s m * s'.v.z m = 0 := Finset.sum_eq_zero fun m _ => noM m
  have e3 : ∑ m, s'.v.z m = 0 := Finset.sum_eq_zero fun m _ => noM m
  have e4 : l2 s'.v.z = 0 := l2_zero fun m => noM m
  unfold missed
  rw [e1, e2, e3, e4]
  ring

end MiniOpt.Props
