import Verif.Props.NLSDescent
import Verif.Props.NLSState
import Verif.Props.NLSExamples
import Verif.Lemmas.Derivative
import Verif.Lemmas.DemoHill

/-!
# C76, C77, C78: the nonlinear solver stops by itself (exact arithmetic)

The number of accepted steps is bounded by the two exit tolerances, the number of consecutive rejected steps by the damping
limits, hence the number of iterations by a number that does not depend on `max_iterations`.
-/

set_option autoImplicit false

namespace MiniOpt.Props

open MiniOpt.Spec MiniOpt.NLS

variable {n D : Nat}

/-- How many of the first `k` logged iterations report `SUCCESS`. -/
def successesBefore (its : List (NLSIteration ℝ)) (k : Nat) : Nat :=
  ((its.take k).filter fun it => decide (it.stepResult = .success)).length

theorem successesBefore_zero (its : List (NLSIteration ℝ)) : successesBefore its 0 = 0 := rfl

theorem successesBefore_succ {its : List (NLSIteration ℝ)} {k : Nat} {it : NLSIteration ℝ} (h : its[k]? = some it) :
    successesBefore its (k + 1) = successesBefore its k + if it.stepResult = .success then 1 else 0 := by
  unfold successesBefore
  rw [List.take_add_one, h, List.filter_append, List.length_append]
  by_cases hs : it.stepResult = .success <;> simp [hs]

/-- What happens between two logged iterations. -/
theorem step_errors (env : Env n D ℝ) (hc : ConsistentP env.p) (prm : NLSParams ℝ) (x0 : Fin n → ℝ)
    (o o' : env.Obj) (out : NLSOutputs ℝ) (calls : List (NLSIteration ℝ))
    (h : solve env prm x0 o = .ok (o', out, calls)) (k : Nat) (it it' : NLSIteration ℝ)
    (hit : out.iterations[k]? = some it) (hit' : out.iterations[k + 1]? = some it') :
    (it.stepResult = .success →
      it'.errorsInitial.total it.penalty ≤ it.errorsInitial.total it.penalty * (1 - prm.relativeExitTol) ∧
      prm.absoluteExitTol ≤ max it'.errorsInitial.f it'.errorsInitial.equality) ∧
    (it.stepResult ≠ .success → it'.errorsInitial = it.errorsInitial) := by
  obtain ⟨h1, h2⟩ := C39_errors_chain env hc prm x0 o o' out calls h k it it' hit hit'
  refine ⟨fun hs => ?_, h2⟩
  obtain ⟨st, hst, he⟩ := h1 hs
  have hno : ∀ t, ¬ ExitMeans prm (stateBefore out.iterations k) it t := by
    intro t ht
    have := (C46_exits_are_taken env prm x0 o o' out calls h k it hit t ht).1
    have := lt_of_getElem? hit'
    omega
  have habs : ¬ st.errors.lInfinity < prm.absoluteExitTol := fun hlt => hno .satisfiedAbsoluteTol ⟨hs, st, hst, hlt⟩
  rw [he]
  refine ⟨?_, ?_⟩
  · by_contra hlt
    exact hno .satisfiedRelativeTol ⟨hs, st, hst, habs, not_le.mp hlt⟩
  · have := not_lt.mp habs
    unfold Errors.lInfinity at this
    rwa [real_cmax] at this

theorem errorsInitial_nonneg (env : Env n D ℝ) (hc : ConsistentP env.p) (prm : NLSParams ℝ) (x0 : Fin n → ℝ)
    (o o' : env.Obj) (out : NLSOutputs ℝ) (calls : List (NLSIteration ℝ))
    (h : solve env prm x0 o = .ok (o', out, calls)) (k : Nat) (it : NLSIteration ℝ)
    (hit : out.iterations[k]? = some it) :
    0 ≤ it.errorsInitial.f ∧ 0 ≤ it.errorsInitial.equality ∧
    (k = 0 → it.errorsInitial.f = costAt env.p x0 ∧ it.errorsInitial.equality = violationAt env.p x0) := by
  obtain ⟨hex, hfirst, _⟩ := C38_after env prm x0 o o' out calls h
  have hk := lt_of_getElem? hit
  obtain ⟨a, ha, _⟩ := hex k (by omega)
  obtain ⟨b, hb, _⟩ := hex (k + 1) (by omega)
  obtain ⟨h1, -, -⟩ := C39_logged_errors env hc prm x0 o o' out calls h k it hit a b ha hb
  rw [h1]
  refine ⟨costAt_nonneg _ _, violationAt_nonneg _ _, ?_⟩
  rintro rfl
  rw [hfirst a ha]
  exact ⟨rfl, rfl⟩

/-- **C76**. Every accepted step but the last one of a solve reduces the merit function, divided by the penalty, by the factor
`1 - relative_exit_tol`, and leaves an error of at least `absolute_exit_tol`; so the number `s` of accepted steps before any
logged iteration is bounded: `absolute_exit_tol * min(1, 1/penalty) ≤ merit(x0)/penalty0 * (1 - relative_exit_tol)^s`. -/
theorem C76_accepted_steps (env : Env n D ℝ) (hc : ConsistentP env.p) (prm : NLSParams ℝ) (x0 : Fin n → ℝ)
    (o o' : env.Obj) (out : NLSOutputs ℝ) (calls : List (NLSIteration ℝ))
    (h : solve env prm x0 o = .ok (o', out, calls)) (first it : NLSIteration ℝ) (k : Nat)
    (hfirst : out.iterations[0]? = some first) (hit : out.iterations[k]? = some it) :
    it.errorsInitial.f / it.penalty + it.errorsInitial.equality
      ≤ (costAt env.p x0 / first.penalty + violationAt env.p x0)
        * (1 - prm.relativeExitTol) ^ successesBefore out.iterations k ∧
    (0 < successesBefore out.iterations k →
      prm.absoluteExitTol ≤ max it.errorsInitial.f it.errorsInitial.equality ∧
      prm.absoluteExitTol * min 1 (1 / it.penalty)
        ≤ (costAt env.p x0 / first.penalty + violationAt env.p x0)
          * (1 - prm.relativeExitTol) ^ successesBefore out.iterations k) := by
  obtain ⟨hpos, hmono, -⟩ := C44_penalty env prm x0 o o' out calls h
  obtain ⟨S, T, W, hv⟩ := solve_view h
  have hprm := hv.prmOk
  have hrel : 0 ≤ 1 - prm.relativeExitTol := by have := hprm.relativeExitTol.2; linarith
  have main : ∀ (k : Nat) (it : NLSIteration ℝ), out.iterations[k]? = some it →
      it.errorsInitial.f / it.penalty + it.errorsInitial.equality
        ≤ (costAt env.p x0 / first.penalty + violationAt env.p x0)
          * (1 - prm.relativeExitTol) ^ successesBefore out.iterations k ∧
      (0 < successesBefore out.iterations k → prm.absoluteExitTol ≤ max it.errorsInitial.f it.errorsInitial.equality) := by
    intro k
    induction k with
    | zero =>
      intro it hit
      rw [hfirst] at hit
      cases hit
      obtain ⟨-, -, h0⟩ := errorsInitial_nonneg env hc prm x0 o o' out calls h 0 first hfirst
      rw [(h0 rfl).1, (h0 rfl).2, successesBefore_zero, pow_zero, mul_one]
      exact ⟨le_rfl, fun hn => absurd hn (lt_irrefl 0)⟩
    | succ k ih =>
      intro it' hit'
      have hk := lt_of_getElem? hit'
      obtain ⟨it, hit⟩ : ∃ it, out.iterations[k]? = some it := ⟨_, List.getElem?_eq_getElem (by omega)⟩
      obtain ⟨i1, i2⟩ := ih it hit
      obtain ⟨s1, s2⟩ := step_errors env hc prm x0 o o' out calls h k it it' hit hit'
      obtain ⟨f0, e0, -⟩ := errorsInitial_nonneg env hc prm x0 o o' out calls h (k + 1) it' hit'
      have hp := (hpos it (List.mem_of_getElem? hit)).1
      have hp' := (hpos it' (List.mem_of_getElem? hit')).1
      have hle := hmono k (k + 1) it it' (by omega) hit hit'
      have hdiv : it'.errorsInitial.f / it'.penalty ≤ it'.errorsInitial.f / it.penalty :=
        div_le_div_of_nonneg_left f0 hp hle
      rw [successesBefore_succ hit]
      by_cases hs : it.stepResult = .success
      · obtain ⟨m1, m2⟩ := s1 hs
        rw [if_pos hs]
        refine ⟨?_, fun _ => m2⟩
        unfold Errors.total at m1
        have e1 : it'.errorsInitial.f / it.penalty + it'.errorsInitial.equality
            ≤ (it.errorsInitial.f / it.penalty + it.errorsInitial.equality) * (1 - prm.relativeExitTol) := by
          have e2 : it'.errorsInitial.f / it.penalty + it'.errorsInitial.equality
              = (it'.errorsInitial.f + it.penalty * it'.errorsInitial.equality) / it.penalty := by
            field_simp
          have e3 : (it.errorsInitial.f / it.penalty + it.errorsInitial.equality) * (1 - prm.relativeExitTol)
              = (it.errorsInitial.f + it.penalty * it.errorsInitial.equality) * (1 - prm.relativeExitTol) / it.penalty := by
            field_simp
          rw [e2, e3]
          exact div_le_div_of_nonneg_right m1 hp.le
        have e4 := mul_le_mul_of_nonneg_right i1 hrel
        rw [pow_succ, ← mul_assoc]
        linarith
      · rw [if_neg hs, Nat.add_zero]
        rw [s2 hs] at hdiv ⊢
        refine ⟨?_, i2⟩
        linarith
  obtain ⟨m1, m2⟩ := main k it hit
  refine ⟨m1, fun hn => ⟨m2 hn, ?_⟩⟩
  refine le_trans ?_ m1
  obtain ⟨f0, e0, -⟩ := errorsInitial_nonneg env hc prm x0 o o' out calls h k it hit
  have hp := (hpos it (List.mem_of_getElem? hit)).1
  have ha := hprm.absoluteExitTol
  have hf : 0 ≤ it.errorsInitial.f / it.penalty := div_nonneg f0 hp.le
  rcases le_max_iff.mp (m2 hn) with hm | hm
  · have h1 : prm.absoluteExitTol * min 1 (1 / it.penalty) ≤ prm.absoluteExitTol * (1 / it.penalty) :=
      mul_le_mul_of_nonneg_left (min_le_right _ _) ha.le
    have h2 : prm.absoluteExitTol * (1 / it.penalty) ≤ it.errorsInitial.f / it.penalty := by
      rw [mul_one_div]
      exact div_le_div_of_nonneg_right hm hp.le
    linarith
  · have h1 : prm.absoluteExitTol * min 1 (1 / it.penalty) ≤ prm.absoluteExitTol * 1 :=
      mul_le_mul_of_nonneg_left (min_le_left _ _) ha.le
    linarith

/-- **C76** (no equality constraints). Then the bound is on the cost itself. -/
theorem C76_accepted_steps_unconstrained (env : Env n D ℝ) (hc : ConsistentP env.p) (he : env.p.eqs = [])
    (prm : NLSParams ℝ) (x0 : Fin n → ℝ) (o o' : env.Obj) (out : NLSOutputs ℝ) (calls : List (NLSIteration ℝ))
    (h : solve env prm x0 o = .ok (o', out, calls)) (it : NLSIteration ℝ) (k : Nat)
    (hit : out.iterations[k]? = some it) :
    it.errorsInitial.f ≤ costAt env.p x0 * (1 - prm.relativeExitTol) ^ successesBefore out.iterations k ∧
    (0 < successesBefore out.iterations k →
      prm.absoluteExitTol ≤ costAt env.p x0 * (1 - prm.relativeExitTol) ^ successesBefore out.iterations k) := by
  have hk := lt_of_getElem? hit
  obtain ⟨first, hfirst⟩ : ∃ it, out.iterations[0]? = some it := ⟨_, List.getElem?_eq_getElem (by omega)⟩
  obtain ⟨m1, m2⟩ := C76_accepted_steps env hc prm x0 o o' out calls h first it k hfirst hit
  obtain ⟨hpos, -, -⟩ := C44_penalty env prm x0 o o' out calls h
  obtain ⟨p1, -, p3⟩ := hpos it (List.mem_of_getElem? hit)
  obtain ⟨-, -, q3⟩ := hpos first (List.mem_of_getElem? hfirst)
  have hpen : it.penalty = first.penalty := (p3 he).trans (q3 he).symm
  obtain ⟨hex, -, -⟩ := C38_after env prm x0 o o' out calls h
  obtain ⟨a, ha, _⟩ := hex k (by omega)
  obtain ⟨b, hb, _⟩ := hex (k + 1) (by omega)
  obtain ⟨h1, -, -⟩ := C39_logged_errors env hc prm x0 o o' out calls h k it hit a b ha hb
  have hv0 : ∀ x : Fin n → ℝ, violationAt env.p x = 0 := by
    intro x; unfold violationAt; rw [he]; rfl
  have he0 : it.errorsInitial.equality = 0 := by rw [h1]; exact hv0 _
  have hf0 : 0 ≤ it.errorsInitial.f := by rw [h1]; exact costAt_nonneg _ _
  have m3 : it.errorsInitial.f ≤ costAt env.p x0 * (1 - prm.relativeExitTol) ^ successesBefore out.iterations k := by
    rw [he0, hv0, hpen, add_zero, add_zero, div_mul_eq_mul_div] at m1
    rw [hpen] at p1
    exact (div_le_div_iff_of_pos_right p1).mp m1
  refine ⟨m3, fun hn => le_trans ?_ m3⟩
  have := (m2 hn).1
  rwa [he0, max_eq_left hf0] at this

/-- The predicted decrease an iteration realised: the accepted `alpha` times the size of the directional derivative, zero if no
step was accepted. -/
noncomputable def realised (it : NLSIteration ℝ) : ℝ :=
  if it.stepResult = .success then
    (it.lineSearchSteps.getLast?.map (·.alpha)).getD 0 * |it.directionalDerivatives.dF|
  else 0

/-- **C76** (total decrease, no equality constraints). The predicted decreases `alpha * |derivative|` of all accepted steps add up
to at most `10^4` times the decrease of the cost, hence to at most `10^4` times the initial cost. -/
theorem C76_total_decrease (env : Env n D ℝ) (hc : ConsistentP env.p) (he : env.p.eqs = []) (prm : NLSParams ℝ)
    (x0 : Fin n → ℝ) (o o' : env.Obj) (out : NLSOutputs ℝ) (calls : List (NLSIteration ℝ))
    (h : solve env prm x0 o = .ok (o', out, calls)) :
    (∀ it ∈ out.iterations, 0 ≤ realised it) ∧
    (out.iterations.map realised).sum ≤ 10 ^ 4 * (costAt env.p x0 - costAt env.p o'.vars) ∧
    (out.iterations.map realised).sum ≤ 10 ^ 4 * costAt env.p x0 := by
  obtain ⟨hex, hfirst, hlast⟩ := C38_after env prm x0 o o' out calls h
  have hv0 : ∀ x : Fin n → ℝ, violationAt env.p x = 0 := by
    intro x; unfold violationAt; rw [he]; rfl
  have hK : env.p.K = 0 := by simp [Problem.K, he]
  have hstep : ∀ (k : Nat) it, out.iterations[k]? = some it → ∀ a b, After env prm x0 o k a → After env prm x0 o (k + 1) b →
      0 ≤ realised it ∧ realised it ≤ 10 ^ 4 * (costAt env.p a.vars - costAt env.p b.vars) := by
    intro k it hit a b ha hb
    unfold realised
    by_cases hs : it.stepResult = .success
    · obtain ⟨st, hst, h0, h1, hd, hm, -⟩ := C36_sufficient_decrease env hc prm x0 o o' out calls h k it hit hs a b ha hb
      rw [if_pos hs, hst]
      simp only [Option.map_some, Option.getD_some]
      have hdz : it.directionalDerivatives.dEquality = 0 := by
        rw [(C38_direction env prm x0 o o' out calls h k it hit a b ha hb).2.1, (costDerivative_real _ _).2]
        exact Finset.sum_eq_zero fun i _ => absurd (lt_of_lt_of_eq i.isLt hK) (Nat.not_lt_zero _)
      unfold merit at hm
      rw [hv0, hv0, hdz] at hm
      rw [hdz] at hd
      simp only [mul_zero, add_zero] at hm hd
      rw [abs_of_nonpos hd]
      refine ⟨mul_nonneg h0.le (neg_nonneg.mpr hd), ?_⟩
      linarith
    · rw [if_neg hs, (C38_variables_move env prm x0 o o' out calls h k it hit a b ha hb).2 hs]
      exact ⟨le_rfl, by rw [sub_self, mul_zero]⟩
  have hsum : ∀ k, k ≤ out.iterations.length → ∀ a, After env prm x0 o k a →
      ((out.iterations.take k).map realised).sum ≤ 10 ^ 4 * (costAt env.p x0 - costAt env.p a.vars) := by
    intro k
    induction k with
    | zero =>
      intro _ a ha
      rw [hfirst a ha]
      simp
    | succ k ih =>
      intro hk b hb
      obtain ⟨a, ha, -⟩ := hex k (by omega)
      obtain ⟨it, hit⟩ : ∃ it, out.iterations[k]? = some it := ⟨_, List.getElem?_eq_getElem (by omega)⟩
      have h1 := ih (by omega) a ha
      have h2 := (hstep k it hit a b ha hb).2
      rw [List.take_add_one, hit, List.map_append, List.sum_append]
      simp only [Option.toList_some, List.map_cons, List.map_nil, List.sum_cons, List.sum_nil, add_zero]
      linarith
  obtain ⟨z, hz, -⟩ := hex out.iterations.length le_rfl
  have hfin := hsum _ le_rfl z hz
  rw [List.take_length, hlast z hz] at hfin
  refine ⟨?_, hfin, ?_⟩
  · intro it hit
    obtain ⟨k, hk⟩ := List.mem_iff_getElem?.mp hit
    have := lt_of_getElem? hk
    obtain ⟨a, ha, -⟩ := hex k (by omega)
    obtain ⟨b, hb, -⟩ := hex (k + 1) (by omega)
    exact (hstep k it hk a b ha hb).1
  · have := costAt_nonneg env.p o'.vars
    linarith

/-! ## Consecutive failures -/

/-- An iteration whose line search found no acceptable step. -/
def Failed (it : NLSIteration ℝ) : Prop := it.stepResult = .maxIterations ∨ it.stepResult = .positiveDerivative

/-- **C77**. Of `r + 1` consecutive failed iterations that do not end the solve, the damping afterwards is at least
`lambda_failure_init * 10^r`; so `lambda_failure_init * 10^r ≤ max_lambda`. -/
theorem C77_failed_steps (env : Env n D ℝ) (prm : NLSParams ℝ) (x0 : Fin n → ℝ)
    (o o' : env.Obj) (out : NLSOutputs ℝ) (calls : List (NLSIteration ℝ))
    (h : solve env prm x0 o = .ok (o', out, calls)) (k r : Nat) (next : NLSIteration ℝ)
    (hfail : ∀ (j : Nat) it, j ≤ r → out.iterations[k + j]? = some it → Failed it)
    (hnext : out.iterations[k + r + 1]? = some next) :
    prm.lambdaFailureInit * 10 ^ r ≤ next.lambda ∧ prm.lambdaFailureInit * 10 ^ r ≤ prm.maxLambda := by
  obtain ⟨hlim, hstep⟩ := C43_lambda_limits env prm x0 o o' out calls h
  obtain ⟨-, hsm⟩ := C43_state_machine env prm x0 o o' out calls h
  obtain ⟨S, T, W, hv⟩ := solve_view h
  have hfi := hv.prmOk.lambdaFailureInit
  suffices hmain : prm.lambdaFailureInit * 10 ^ r ≤ next.lambda from
    ⟨hmain, hmain.trans (hlim next (List.mem_of_getElem? hnext)).2⟩
  -- the damping in the restoring state
  have hinv : ∀ (k : Nat) (it : NLSIteration ℝ), out.iterations[k]? = some it →
      stateBefore out.iterations k = .attemptingRestoreLM → prm.lambdaFailureInit ≤ it.lambda := by
    intro k
    induction k with
    | zero => intro it _ hs; simp [stateBefore] at hs
    | succ k ih =>
      intro it' hit' hs
      have hk := lt_of_getElem? hit'
      obtain ⟨it, hit⟩ : ∃ it, out.iterations[k]? = some it := ⟨_, List.getElem?_eq_getElem (by omega)⟩
      have hst : it.optimizerState = .attemptingRestoreLM := by
        simpa [stateBefore, hit] using hs
      have hm := hsm k it hit
      have hfl : Failed it → prm.lambdaFailureInit ≤ it'.lambda := by
        intro hf
        obtain ⟨-, h2⟩ := hstep k it it' hit hit'
        obtain ⟨l1, l2, l3⟩ := h2 hf
        cases hb : stateBefore out.iterations k with
        | nominal => exact l3 hb
        | attemptingRestoreLM => exact (ih it hit hb).trans l1
      simp only [hit', Option.map_some] at hm
      cases hr : it.stepResult with
      | success => simp only [hr] at hm; rw [hm.1] at hst; cases hst
      | maxIterations => exact hfl (Or.inl hr)
      | positiveDerivative => exact hfl (Or.inr hr)
      | firstOrderSatisfied => simp only [hr] at hm; cases hm.2
      | failureNonFiniteCost =>
        simp only [hr] at hm
        rw [hm.2 _ rfl]
        exact ih it hit (hm.1.symm.trans hst)
      | failureInvalidAlpha =>
        simp only [hr] at hm
        rw [hm.2 _ rfl]
        exact ih it hit (hm.1.symm.trans hst)
  induction r generalizing next with
  | zero =>
    have hk := lt_of_getElem? hnext
    obtain ⟨it, hit⟩ : ∃ it, out.iterations[k]? = some it := ⟨_, List.getElem?_eq_getElem (by omega)⟩
    obtain ⟨-, h2⟩ := hstep k it next hit hnext
    obtain ⟨l1, l2, l3⟩ := h2 (hfail 0 it le_rfl hit)
    rw [pow_zero, mul_one]
    cases hb : stateBefore out.iterations k with
    | nominal => exact l3 hb
    | attemptingRestoreLM => exact (hinv k it hit hb).trans l1
  | succ r ih =>
    have hk := lt_of_getElem? hnext
    obtain ⟨it, hit⟩ : ∃ it, out.iterations[k + r + 1]? = some it := ⟨_, List.getElem?_eq_getElem (by omega)⟩
    have h1 := ih it (fun j it hj => hfail j it (by omega)) hit
    obtain ⟨-, h2⟩ := hstep (k + r + 1) it next hit hnext
    obtain ⟨l1, l2, l3⟩ := h2 (hfail (r + 1) it le_rfl hit)
    have h0 : 0 ≤ prm.lambdaFailureInit * 10 ^ r := by positivity
    have := l2 (h0.trans h1)
    rw [pow_succ]
    linarith

/-- **C77** (a trap). With `lambda_failure_init = 0`, which is accepted, a failed iteration without damping leaves the damping at
zero and the variables where they were: the same step is computed again. -/
theorem C77_zero_failure_init (env : Env n D ℝ) (prm : NLSParams ℝ) (x0 : Fin n → ℝ)
    (o o' : env.Obj) (out : NLSOutputs ℝ) (calls : List (NLSIteration ℝ))
    (h : solve env prm x0 o = .ok (o', out, calls)) (hz : prm.lambdaFailureInit = 0) (k : Nat) (it it' : NLSIteration ℝ)
    (hit : out.iterations[k]? = some it) (hit' : out.iterations[k + 1]? = some it') (hf : Failed it) (hl : it.lambda = 0)
    (a b : env.Obj) (ha : After env prm x0 o k a) (hb : After env prm x0 o (k + 1) b) :
    it'.lambda = 0 ∧ b.vars = a.vars := by
  obtain ⟨-, hsm⟩ := C43_state_machine env prm x0 o o' out calls h
  have hm := hsm k it hit
  simp only [hit', Option.map_some] at hm
  have hns : it.stepResult ≠ .success := by rcases hf with hf | hf <;> rw [hf] <;> simp
  refine ⟨?_, (C38_variables_move env prm x0 o o' out calls h k it hit a b ha hb).2 hns⟩
  have hr : ∀ s, raisedLambda prm s it.lambda = 0 := by
    intro s
    cases s <;> simp [raisedLambda, hl, hz, real_cmax]
  rcases hf with hf | hf <;> simp only [hf] at hm <;> rw [(hm.2 _ rfl).1, hr]

/-! ## The number of iterations -/

/-- In exact arithmetic no cost is reported as not finite. -/
theorem never_nonfinite (env : Env n D ℝ) (prm : NLSParams ℝ) (x0 : Fin n → ℝ)
    (o o' : env.Obj) (out : NLSOutputs ℝ) (calls : List (NLSIteration ℝ))
    (h : solve env prm x0 o = .ok (o', out, calls)) (it : NLSIteration ℝ) (hit : it ∈ out.iterations) :
    it.stepResult ≠ .failureNonFiniteCost := by
  obtain ⟨S, T, W, hv⟩ := solve_view h
  obtain ⟨k, hk⟩ := List.mem_iff_getElem?.mp hit
  obtain ⟨_, rfl, hp⟩ := view_info hv hk
  obtain ⟨-, hout, -⟩ := lsLoop_start _ _ _ _ _ _ _ _ _ _ _ _ hp.ls
  intro hr
  rw [hp.ires] at hr
  obtain ⟨st, -, hi⟩ := hout.facts.nonFinite hr
  rcases hi with hi | hi <;> exact hi trivial

/-- Bounded numbers of accepted and of consecutive failed iterations bound the number of iterations. -/
theorem count_bound (env : Env n D ℝ) (prm : NLSParams ℝ) (x0 : Fin n → ℝ)
    (o o' : env.Obj) (out : NLSOutputs ℝ) (calls : List (NLSIteration ℝ))
    (h : solve env prm x0 o = .ok (o', out, calls)) (S R : Nat)
    (hsucc : ∀ k it, out.iterations[k]? = some it → successesBefore out.iterations k < S)
    (hR : prm.maxLambda < prm.lambdaFailureInit * 10 ^ R)
    (hvalid : ∀ it ∈ out.iterations, it.stepResult ≠ .failureInvalidAlpha) :
    out.iterations.length ≤ S * (R + 1) := by
  rcases Nat.eq_zero_or_pos out.iterations.length with h0 | hlen
  · omega
  obtain ⟨V, T, W, hv⟩ := solve_view h
  have hprm := hv.prmOk
  obtain ⟨-, hsm⟩ := C43_state_machine env prm x0 o o' out calls h
  -- every iteration that has a successor is accepted or failed
  have hkind : ∀ (k : Nat) it it', out.iterations[k]? = some it → out.iterations[k + 1]? = some it' →
      it.stepResult = .success ∨ Failed it := by
    intro k it it' hit hit'
    have hm := hsm k it hit
    simp only [hit', Option.map_some] at hm
    cases hr : it.stepResult with
    | success => exact Or.inl rfl
    | maxIterations => exact Or.inr (Or.inl hr)
    | positiveDerivative => exact Or.inr (Or.inr hr)
    | firstOrderSatisfied => simp only [hr] at hm; cases hm.2
    | failureNonFiniteCost =>
      exact absurd hr (never_nonfinite env prm x0 o o' out calls h it (List.mem_of_getElem? hit))
    | failureInvalidAlpha => exact absurd hr (hvalid it (List.mem_of_getElem? hit))
  have hcount : ∀ k, k < out.iterations.length → ∃ r, r ≤ k ∧ r ≤ R ∧
      (∀ (j : Nat) it, j < r → out.iterations[k - r + j]? = some it → Failed it) ∧
      k ≤ successesBefore out.iterations k * (R + 1) + r := by
    intro k
    induction k with
    | zero => intro _; exact ⟨0, le_rfl, Nat.zero_le _, fun j it hj => absurd hj (Nat.not_lt_zero _), by omega⟩
    | succ k ih =>
      intro hk
      obtain ⟨r, r1, r2, r3, r4⟩ := ih (by omega)
      obtain ⟨it, hit⟩ : ∃ it, out.iterations[k]? = some it := ⟨_, List.getElem?_eq_getElem (by omega)⟩
      obtain ⟨it', hit'⟩ : ∃ it, out.iterations[k + 1]? = some it := ⟨_, List.getElem?_eq_getElem hk⟩
      rw [successesBefore_succ hit]
      rcases hkind k it it' hit hit' with hs | hf
      · refine ⟨0, Nat.zero_le _, Nat.zero_le _, fun j it hj => absurd hj (Nat.not_lt_zero _), ?_⟩
        rw [if_pos hs, Nat.add_mul]
        omega
      · have hall : ∀ (j : Nat) it, j ≤ r → out.iterations[k - r + j]? = some it → Failed it := by
          intro j it2 hj h2
          rcases Nat.lt_or_eq_of_le hj with hj | rfl
          · exact r3 j it2 hj h2
          · rw [show k - j + j = k by omega, hit] at h2
            cases h2
            exact hf
        obtain ⟨-, hb⟩ := C77_failed_steps env prm x0 o o' out calls h (k - r) r it' hall
          (by rw [show k - r + r + 1 = k + 1 by omega]; exact hit')
        have hrR : r < R := by
          by_contra hge
          have h10 : (10 : ℝ) ^ R ≤ 10 ^ r := pow_le_pow_right₀ (by norm_num) (not_lt.mp hge)
          have := mul_le_mul_of_nonneg_left h10 hprm.lambdaFailureInit
          linarith
        have hns : it.stepResult ≠ .success := by rcases hf with hf | hf <;> rw [hf] <;> simp
        refine ⟨r + 1, by omega, by omega, ?_, ?_⟩
        · intro j it2 hj h2
          rw [show k + 1 - (r + 1) = k - r by omega] at h2
          exact hall j it2 (by omega) h2
        · have e0 : successesBefore out.iterations k + (if it.stepResult = .success then 1 else 0)
              = successesBefore out.iterations k := by rw [if_neg hns]; rfl
          rw [e0]; omega
  obtain ⟨L, hL⟩ : ∃ L, out.iterations.length = L + 1 := ⟨out.iterations.length - 1, by omega⟩
  obtain ⟨r, r1, r2, r3, r4⟩ := hcount L (by omega)
  obtain ⟨last, hlast⟩ : ∃ it, out.iterations[L]? = some it := ⟨_, List.getElem?_eq_getElem (by omega)⟩
  have hs := hsucc L last hlast
  rw [hL]
  calc L + 1 ≤ successesBefore out.iterations L * (R + 1) + R + 1 := by omega
    _ = (successesBefore out.iterations L + 1) * (R + 1) := by ring
    _ ≤ S * (R + 1) := Nat.mul_le_mul_right _ hs

/-- **C78**. A bound on the number of iterations that does not mention `max_iterations`: let `S` accepted steps be too many for the
tolerances and the penalties that occur, and `R` factors of ten too many for the damping limits; then a solve in which no line
search ends with `FAILURE_INVALID_ALPHA` logs at most `S * (R + 1)` iterations. -/
theorem C78_iteration_bound (env : Env n D ℝ) (hc : ConsistentP env.p) (prm : NLSParams ℝ) (x0 : Fin n → ℝ)
    (o o' : env.Obj) (out : NLSOutputs ℝ) (calls : List (NLSIteration ℝ))
    (h : solve env prm x0 o = .ok (o', out, calls)) (S R : Nat) (penMax : ℝ)
    (hpen : ∀ it ∈ out.iterations, it.penalty ≤ penMax)
    (hS : ∀ first, out.iterations[0]? = some first → (costAt env.p x0 / first.penalty + violationAt env.p x0)
      * (1 - prm.relativeExitTol) ^ S < prm.absoluteExitTol * min 1 (1 / penMax)) (hS1 : 0 < S)
    (hR : prm.maxLambda < prm.lambdaFailureInit * 10 ^ R)
    (hvalid : ∀ it ∈ out.iterations, it.stepResult ≠ .failureInvalidAlpha) :
    out.iterations.length ≤ S * (R + 1) := by
  rcases Nat.eq_zero_or_pos out.iterations.length with h0 | hlen
  · omega
  obtain ⟨first, hfirst⟩ : ∃ it, out.iterations[0]? = some it := ⟨_, List.getElem?_eq_getElem hlen⟩
  obtain ⟨V, T, W, hv⟩ := solve_view h
  have hprm := hv.prmOk
  have hrel0 : 0 ≤ 1 - prm.relativeExitTol := by have := hprm.relativeExitTol.2; linarith
  have hrel1 : 1 - prm.relativeExitTol ≤ 1 := by have := hprm.relativeExitTol.1; linarith
  obtain ⟨hpos, -, -⟩ := C44_penalty env prm x0 o o' out calls h
  have hfp := (hpos first (List.mem_of_getElem? hfirst)).1
  have hψ : 0 ≤ costAt env.p x0 / first.penalty + violationAt env.p x0 :=
    add_nonneg (div_nonneg (costAt_nonneg _ _) hfp.le) (violationAt_nonneg _ _)
  -- accepted steps
  have hsucc : ∀ k it, out.iterations[k]? = some it → successesBefore out.iterations k < S := by
    intro k it hit
    by_contra hge
    have hge : S ≤ successesBefore out.iterations k := not_lt.mp hge
    obtain ⟨-, m2⟩ := C76_accepted_steps env hc prm x0 o o' out calls h first it k hfirst hit
    have m3 := (m2 (by omega)).2
    have hp := (hpos it (List.mem_of_getElem? hit)).1
    have hle := hpen it (List.mem_of_getElem? hit)
    have h1 : (1 - prm.relativeExitTol) ^ successesBefore out.iterations k ≤ (1 - prm.relativeExitTol) ^ S :=
      pow_le_pow_of_le_one hrel0 hrel1 hge
    have h2 := mul_le_mul_of_nonneg_left h1 hψ
    have h3 : min 1 (1 / penMax) ≤ min 1 (1 / it.penalty) :=
      min_le_min_left _ (one_div_le_one_div_of_le hp hle)
    have h4 := mul_le_mul_of_nonneg_left h3 hprm.absoluteExitTol.le
    have := hS first hfirst
    linarith
  exact count_bound env prm x0 o o' out calls h S R hsucc hR hvalid

/-- Without equality constraints and with a positive first-order tolerance, no line search ends with an invalid `alpha`. -/
theorem never_invalid (env : Env n D ℝ) (he : env.p.eqs = []) (prm : NLSParams ℝ) (x0 : Fin n → ℝ)
    (o o' : env.Obj) (out : NLSOutputs ℝ) (calls : List (NLSIteration ℝ))
    (h : solve env prm x0 o = .ok (o', out, calls)) (ht : 0 < prm.absoluteFirstDerivativeTol)
    (it : NLSIteration ℝ) (hit : it ∈ out.iterations) : it.stepResult ≠ .failureInvalidAlpha := by
  intro hr
  obtain ⟨-, hz, hl⟩ := C42_invalid_alpha_cause env prm x0 o o' out calls h it hit hr
  obtain ⟨S, T, W, hv⟩ := solve_view h
  obtain ⟨k, hk⟩ := List.mem_iff_getElem?.mp hit
  obtain ⟨hlt, rfl, hp⟩ := view_info hv hk
  obtain ⟨-, hout, -⟩ := lsLoop_start _ _ _ _ _ _ _ _ _ _ _ _ hp.ls
  rw [hp.ires] at hr
  rw [hp.isteps] at hl
  obtain ⟨-, hrej, -⟩ := hout.facts.invalidAlpha hr
  obtain ⟨st, hst⟩ : ∃ st, st ∈ (W k).steps := List.exists_mem_of_length_pos (by omega)
  have hnl := (hrej st hst).notFirstOrder
  rw [hp.ideriv] at hz
  have hK : env.p.K = 0 := by simp [Problem.K, he]
  have hd : (costDerivative (W k).qp (W k).dx).dEquality = 0 := by
    rw [(costDerivative_real _ _).2]
    exact Finset.sum_eq_zero fun i _ => absurd (lt_of_lt_of_eq i.isLt hK) (Nat.not_lt_zero _)
  unfold DirectionalDerivatives.total at hz
  rw [hd, mul_zero, add_zero] at hz
  apply hnl
  unfold DirectionalDerivatives.lInfinity
  rw [hd, hz, real_cmax]
  simpa using ht

/-- **C78** (no equality constraints). For every problem without equality constraints, start and parameters with a positive
relative tolerance, first-order tolerance and `lambda_failure_init`, there is a number of iterations `B` such that no solve, whatever
its `max_iterations`, callback and earlier use of the solver, logs more than `B` iterations, and `MAX_ITERATIONS` is reported only if
`max_iterations ≤ B`. -/
theorem C78_terminates (p : Problem D ℝ) (hc : ConsistentP p) (he : p.eqs = []) (prm : NLSParams ℝ) (x0 : Fin n → ℝ)
    (hrel : 0 < prm.relativeExitTol) (hfirst : 0 < prm.absoluteFirstDerivativeTol) (hfail : 0 < prm.lambdaFailureInit)
    (habs : 0 < prm.absoluteExitTol) :
    ∃ B : Nat, ∀ env : Env n D ℝ, env.p = p → ∀ (limit : Int) (o o' : env.Obj) (out : NLSOutputs ℝ)
      (calls : List (NLSIteration ℝ)), solve env { prm with maxIterations := limit } x0 o = .ok (o', out, calls) →
      out.iterations.length ≤ B ∧ (out.termination = .maxIterations → limit ≤ B) := by
  have hR : ∃ R : Nat, prm.maxLambda < prm.lambdaFailureInit * 10 ^ R := by
    obtain ⟨R, hR⟩ := pow_unbounded_of_one_lt (prm.maxLambda / prm.lambdaFailureInit) (by norm_num : (1 : ℝ) < 10)
    refine ⟨R, ?_⟩
    rw [div_lt_iff₀ hfail] at hR
    linarith
  obtain ⟨R, hR⟩ := hR
  by_cases hle : prm.relativeExitTol ≤ 1
  · have hS : ∃ S : Nat, 0 < S ∧ costAt p x0 * (1 - prm.relativeExitTol) ^ S < prm.absoluteExitTol := by
      have hcpos : 0 < costAt p x0 + 1 := by have := costAt_nonneg p x0; linarith
      obtain ⟨S, hS⟩ := exists_pow_lt_of_lt_one (div_pos habs hcpos) (by linarith : 1 - prm.relativeExitTol < 1)
      refine ⟨S + 1, by omega, ?_⟩
      rw [lt_div_iff₀ hcpos] at hS
      have h1 : (1 - prm.relativeExitTol) ^ (S + 1) ≤ (1 - prm.relativeExitTol) ^ S :=
        pow_le_pow_of_le_one (by linarith) (by linarith) (by omega)
      have h0 : 0 ≤ (1 - prm.relativeExitTol) ^ S := pow_nonneg (by linarith) _
      have h2 := mul_le_mul_of_nonneg_left h1 (costAt_nonneg p x0)
      have h3 : costAt p x0 * (1 - prm.relativeExitTol) ^ S ≤ (1 - prm.relativeExitTol) ^ S * (costAt p x0 + 1) := by
        linarith
      linarith
    obtain ⟨S, hS1, hS⟩ := hS
    refine ⟨S * (R + 1), ?_⟩
    rintro env rfl limit o o' out calls h
    have hbound : out.iterations.length ≤ S * (R + 1) := by
      refine count_bound env _ x0 o o' out calls h S R ?_ hR (never_invalid env he _ x0 o o' out calls h hfirst)
      intro k it hit
      by_contra hge
      have hge : S ≤ successesBefore out.iterations k := not_lt.mp hge
      have m := (C76_accepted_steps_unconstrained env hc he _ x0 o o' out calls h it k hit).2 (by omega)
      have m' : prm.absoluteExitTol ≤ costAt env.p x0 * (1 - prm.relativeExitTol) ^ successesBefore out.iterations k := m
      have h1 : (1 - prm.relativeExitTol) ^ successesBefore out.iterations k ≤ (1 - prm.relativeExitTol) ^ S :=
        pow_le_pow_of_le_one (by linarith) (by linarith) hge
      have h2 := mul_le_mul_of_nonneg_left h1 (costAt_nonneg env.p x0)
      linarith
    refine ⟨hbound, fun ht => ?_⟩
    have := C46_termination env _ x0 o o' out calls h
    rw [ht] at this
    have h2 : (out.iterations.length : Int) = limit := this
    rw [← h2]
    exact_mod_cast hbound
  · refine ⟨0, ?_⟩
    rintro env rfl limit o o' out calls h
    obtain ⟨V, T, W, hv⟩ := solve_view h
    exact absurd hv.prmOk.relativeExitTol.2 hle

/-! ## Concrete cases -/

open MiniOpt.DemoReal

/-- C78 applies to the default parameters. -/
theorem dp_tolerances : (0 : ℝ) < dp.relativeExitTol ∧ 0 < dp.absoluteFirstDerivativeTol ∧ 0 < dp.lambdaFailureInit ∧
    0 < dp.absoluteExitTol := by
  simp only [dp, NLSParams.default, real_lit]
  norm_num

/-- C78: there is a number of iterations after which the default parameters stop on the linear problem, from any start. -/
example (x0 : Fin 2 → ℝ) : ∃ B : Nat, ∀ limit : Int, 1 ≤ limit → ∃ (o' : lineEnv.Obj) (out : NLSOutputs ℝ)
      (calls : List (NLSIteration ℝ)),
    solve lineEnv { dp with maxIterations := limit } x0 (mkObj _) = .ok (o', out, calls) ∧
    out.iterations ≠ [] ∧ out.iterations.length ≤ B ∧ (out.termination = .maxIterations → limit ≤ B) := by
  obtain ⟨t1, t2, t3, t4⟩ := dp_tolerances
  obtain ⟨B, hB⟩ := C78_terminates lineEnv.p line_ok.consistent rfl dp x0 t1 t2 t3 t4
  refine ⟨B, fun limit hl => ?_⟩
  have hvalid : NLSParamsValid ({ dp with maxIterations := limit } : NLSParams ℝ) :=
    { (nls_default_valid : NLSParamsValid dp) with maxIterations := by show (0 : Int) ≤ limit; omega }
  obtain ⟨o', out, calls, h, hne⟩ := ip_run lineEnv.p line_ok (by simp [lineEnv, mkEnv]) (fun c hc => by cases hc)
    { dp with maxIterations := limit } hvalid dp_penalty hl x0
  obtain ⟨h1, h2⟩ := hB lineEnv rfl limit _ o' out calls h
  exact ⟨o', out, calls, h, hne, h1, h2⟩

/-- C77: on the hill problem the first iteration fails and there is a second one. -/
example : ∃ (o' : hillEnv.Obj) (out : NLSOutputs ℝ) (calls : List (NLSIteration ℝ)) (it next : NLSIteration ℝ),
    solve hillEnv dp hillStart (mkObj _) = .ok (o', out, calls) ∧ out.iterations[0]? = some it ∧ Failed it ∧
    out.iterations[1]? = some next ∧ 1 / 100 ≤ next.lambda := by
  obtain ⟨o', out, calls, it, h, hit, -, hr, -⟩ := hill_run
  have hlen : 1 < out.iterations.length := by
    by_contra hle
    have h1 : out.iterations.length = 1 := by have := lt_of_getElem? hit; omega
    have hlast : out.iterations.getLast? = some it := by rw [List.getLast?_eq_getElem?, h1]; exact hit
    have hl0 := (C43_state_machine hillEnv _ _ _ o' out calls h).1 it hit
    have ht := C46_termination hillEnv _ _ _ o' out calls h
    have hst : stateBefore out.iterations 0 = .nominal := rfl
    cases hc : out.termination <;> simp only [hc] at ht
    all_goals first
      | (rw [h1] at ht; simp [NLSParams.default] at ht; done)
      | (obtain ⟨cb, hcb, -⟩ := ht; cases hcb; done)
      | (obtain ⟨-, -, hne, -⟩ := ht; exact hne rfl)
      | (obtain ⟨it', hl', hm⟩ := ht
         rw [hlast] at hl'
         cases hl'
         simp [ExitMeans, hr, h1, hst, hl0, raisedLambda, NLSParams.default, real_cmax] at hm
         try (norm_num at hm))
  obtain ⟨next, hnext⟩ : ∃ it, out.iterations[1]? = some it := ⟨_, List.getElem?_eq_getElem hlen⟩
  obtain ⟨h1, -⟩ := C77_failed_steps hillEnv _ _ _ o' out calls h 0 0 next (by
    intro j it' hj h2
    obtain rfl : j = 0 := by omega
    rw [hit] at h2
    cases h2
    exact Or.inl hr) hnext
  refine ⟨o', out, calls, it, next, h, hit, Or.inl hr, hnext, ?_⟩
  simpa [NLSParams.default] using h1

end MiniOpt.Props
