import Verif.Props.NLSLog
import Verif.Props.Interpolation
import Verif.Lemmas.DemoReal

/-!
# C36, C37, C40: the line search of the nonlinear solver

Concrete runs meeting the hypotheses of the theorems below: `Props/NLSExamples.lean` (and the examples
beside each theorem).
-/

set_option autoImplicit false

namespace MiniOpt.Props

open MiniOpt.Spec MiniOpt.NLS

section any

variable {α : Type} [Scalar α] {n D : Nat}

theorem nextAlpha_zero (s : LineSearchStrategy) (tau : α) (pre : Errors α) (d : DirectionalDerivatives α)
    (pen alpha : α) (steps : List (LineSearchStep α)) :
    nextAlpha s tau 0 pre d pen alpha steps = .ok (some alpha) := by
  unfold nextAlpha
  cases s <;> simp

/-- **C40** (any arithmetic). Every logged line search has at least one and at most `max_line_search_iterations + 1`
entries and starts at `alpha = 1`. With backtracking each further `alpha` is the previous one times `tau`; with
interpolation it is finite, not `≤ 0`, and not `≥` the previous one. -/
theorem C40_alphas_any (env : Env n D α) (prm : NLSParams α) (x0 : Fin n → α) (o o' : env.Obj)
    (out : NLSOutputs α) (calls : List (NLSIteration α)) (h : solve env prm x0 o = .ok (o', out, calls))
    (it : NLSIteration α) (hit : it ∈ out.iterations) :
    1 ≤ it.lineSearchSteps.length ∧ (it.lineSearchSteps.length : Int) ≤ prm.maxLineSearchIterations + 1 ∧
    (∀ st, it.lineSearchSteps[0]? = some st → st.alpha = 1) ∧
    (∀ (j : Nat) st st', it.lineSearchSteps[j]? = some st → it.lineSearchSteps[j + 1]? = some st' →
      match prm.lineSearchStrategy with
      | .armijoBacktrack => st'.alpha = st.alpha * prm.armijoSearchTau
      | .polynomialApproximation => Scalar.isFinite st'.alpha ∧ ¬ st'.alpha ≤ 0 ∧ ¬ st.alpha ≤ st'.alpha) := by
  obtain ⟨S, T, W, hv⟩ := solve_view h
  obtain ⟨k, hk⟩ := List.mem_iff_getElem?.mp hit
  obtain ⟨_, rfl, hp⟩ := view_info hv hk
  obtain ⟨htr, hout, _⟩ := lsLoop_start _ _ _ _ _ _ _ _ _ _ _ _ hp.ls
  have hf := hout.facts
  have hls := hv.prmOk.maxLineSearchIterations
  rw [hp.isteps]
  refine ⟨?_, by have := hf.len; omega, ?_, ?_⟩
  · by_contra hn
    have h0 : (W k).steps.length = 0 := by omega
    have hnil : (W k).steps = [] := List.length_eq_zero_iff.mp h0
    cases hr : (W k).res with
    | success => obtain ⟨st, hst, _⟩ := hf.success hr; simp [hnil] at hst
    | firstOrderSatisfied => obtain ⟨st, hst, _⟩ := hf.firstOrder hr; simp [hnil] at hst
    | positiveDerivative => obtain ⟨st, hst, _⟩ := hf.positive hr; simp [hnil] at hst
    | failureNonFiniteCost => obtain ⟨st, hst, _⟩ := hf.nonFinite hr; simp [hnil] at hst
    | maxIterations => have := (hf.maxIter hr).1; omega
    | failureInvalidAlpha =>
      have h1 := (hf.invalidAlpha hr).2.2
      rw [h0, nextAlpha_zero] at h1
      cases h1
  · intro st hst
    have hj := lt_of_getElem? hst
    have hc := htr.chain 0 hj
    rw [nextAlpha_zero] at hc
    have he : (W k).steps[0] = st := by
      rw [List.getElem?_eq_getElem hj] at hst; exact Option.some.inj hst
    rw [← he]
    simp only [alphaBefore, if_true, Except.ok.injEq, Option.some.injEq] at hc
    exact hc.symm
  · intro j st st' hst hst'
    have hj := lt_of_getElem? hst'
    have hc := htr.chain (j + 1) hj
    have he : (W k).steps[j + 1] = st' := by
      rw [List.getElem?_eq_getElem hj] at hst'; exact Option.some.inj hst'
    have hb : alphaBefore (W k).steps (j + 1) = st.alpha := by
      simp [alphaBefore, hst]
    rw [hb, he] at hc
    unfold nextAlpha at hc
    cases hs : prm.lineSearchStrategy with
    | armijoBacktrack =>
      rw [hs] at hc
      simp only [Nat.zero_lt_succ, if_true, Except.ok.injEq, Option.some.injEq] at hc
      exact hc.symm
    | polynomialApproximation =>
      rw [hs] at hc
      simp only [Nat.zero_lt_succ, if_true] at hc
      split at hc
      · cases hc
      · cases hc
      · rename_i a ha
        split_ifs at hc with hb
        · cases hc
        · have e : a = st'.alpha := by
            simp only [Except.ok.injEq, Option.some.injEq] at hc; exact hc
          rw [e] at hb
          push Not at hb
          exact ⟨hb.1, hb.2.1, hb.2.2⟩

/-- **C40** (any arithmetic). No entry but the last meets the acceptance test, and none but the last has a non-finite
error; the outcome `SUCCESS` says exactly that the last entry is finite and meets the acceptance test while the
directional derivative is neither small nor positive. -/
theorem C40_only_last_accepted (env : Env n D α) (prm : NLSParams α) (x0 : Fin n → α) (o o' : env.Obj)
    (out : NLSOutputs α) (calls : List (NLSIteration α)) (h : solve env prm x0 o = .ok (o', out, calls))
    (it : NLSIteration α) (hit : it ∈ out.iterations) :
    (∀ (j : Nat) st, j + 1 < it.lineSearchSteps.length → it.lineSearchSteps[j]? = some st →
      ¬ st.errors.containsInvalid ∧
      ¬ st.errors.total it.penalty ≤ it.errorsInitial.total it.penalty
          + it.directionalDerivatives.total it.penalty * st.alpha * armijoC1) ∧
    (it.stepResult = .success ↔ ∃ st, it.lineSearchSteps.getLast? = some st ∧ ¬ st.errors.containsInvalid ∧
      ¬ it.directionalDerivatives.lInfinity < prm.absoluteFirstDerivativeTol ∧
      ¬ 0 < it.directionalDerivatives.total it.penalty ∧
      st.errors.total it.penalty ≤ it.errorsInitial.total it.penalty
          + it.directionalDerivatives.total it.penalty * st.alpha * armijoC1) := by
  obtain ⟨S, T, W, hv⟩ := solve_view h
  obtain ⟨k, hk⟩ := List.mem_iff_getElem?.mp hit
  obtain ⟨_, rfl, hp⟩ := view_info hv hk
  obtain ⟨htr, hout, _⟩ := lsLoop_start _ _ _ _ _ _ _ _ _ _ _ _ hp.ls
  have hf := hout.facts
  rw [hp.isteps, hp.ipre, hp.ideriv, hp.ipenalty, hp.ires]
  refine ⟨?_, fun hs => hf.success hs, ?_⟩
  · intro j st hj hst
    have hr := hf.early j hj
    have he : (W k).steps[j] = st := by
      rw [List.getElem?_eq_getElem (by omega)] at hst; exact Option.some.inj hst
    rw [he] at hr
    exact ⟨hr.valid, hr.notArmijo⟩
  · rintro ⟨st, hst, hval, hfo, hpos, harm⟩
    have hmem := List.mem_of_getLast? hst
    cases hr : (W k).res with
    | success => rfl
    | firstOrderSatisfied => obtain ⟨st', _, _, h3⟩ := hf.firstOrder hr; exact absurd h3 hfo
    | positiveDerivative => obtain ⟨st', _, _, _, h3⟩ := hf.positive hr; exact absurd h3 hpos
    | failureNonFiniteCost =>
      obtain ⟨st', h1, h2⟩ := hf.nonFinite hr
      rw [hst] at h1; cases h1
      exact absurd h2 hval
    | maxIterations => exact absurd harm ((hf.maxIter hr).2 st hmem).notArmijo
    | failureInvalidAlpha => exact absurd harm ((hf.invalidAlpha hr).2.1 st hmem).notArmijo

end any

variable {n D : Nat}

/-- **C40** (exact arithmetic). The step sizes of a line search are strictly decreasing and in `(0, 1]`; under
backtracking the `j`-th one is `tau ^ j`. -/
theorem C40_alphas (env : Env n D ℝ) (prm : NLSParams ℝ) (x0 : Fin n → ℝ) (o o' : env.Obj)
    (out : NLSOutputs ℝ) (calls : List (NLSIteration ℝ)) (h : solve env prm x0 o = .ok (o', out, calls))
    (it : NLSIteration ℝ) (hit : it ∈ out.iterations) :
    it.lineSearchSteps ≠ [] ∧ (it.lineSearchSteps.length : Int) ≤ prm.maxLineSearchIterations + 1 ∧
    (∀ st ∈ it.lineSearchSteps, 0 < st.alpha ∧ st.alpha ≤ 1) ∧
    (∀ (i j : Nat) st st', i < j → it.lineSearchSteps[i]? = some st → it.lineSearchSteps[j]? = some st' →
      st'.alpha < st.alpha) ∧
    (prm.lineSearchStrategy = .armijoBacktrack →
      ∀ (j : Nat) st, it.lineSearchSteps[j]? = some st → st.alpha = prm.armijoSearchTau ^ j) := by
  obtain ⟨h1, h2, h3, h4⟩ := C40_alphas_any env prm x0 o o' out calls h it hit
  obtain ⟨S, T, W, hv⟩ := solve_view h
  have htau := hv.prmOk.armijoSearchTau
  have hpos : ∀ (j : Nat) st, it.lineSearchSteps[j]? = some st → 0 < st.alpha ∧ st.alpha ≤ 1 := by
    intro j
    induction j with
    | zero => intro st hst; rw [h3 st hst]; norm_num
    | succ j ih =>
      intro st' hst'
      have hj := lt_of_getElem? hst'
      obtain ⟨st, hst⟩ : ∃ st, it.lineSearchSteps[j]? = some st :=
        ⟨_, List.getElem?_eq_getElem (by omega)⟩
      have hi := ih st hst
      have h' := h4 j st st' hst hst'
      cases hs : prm.lineSearchStrategy with
      | armijoBacktrack =>
        rw [hs] at h'
        simp only at h'
        rw [h']
        exact ⟨mul_pos hi.1 htau.1, by nlinarith⟩
      | polynomialApproximation =>
        rw [hs] at h'
        exact ⟨not_le.mp h'.2.1, by linarith [not_le.mp h'.2.2]⟩
  have hstep : ∀ (j : Nat) st st', it.lineSearchSteps[j]? = some st → it.lineSearchSteps[j + 1]? = some st' →
      st'.alpha < st.alpha := by
    intro j st st' hst hst'
    have h' := h4 j st st' hst hst'
    have hi := hpos j st hst
    cases hs : prm.lineSearchStrategy with
    | armijoBacktrack => rw [hs] at h'; simp only at h'; rw [h']; nlinarith
    | polynomialApproximation => rw [hs] at h'; exact not_le.mp h'.2.2
  refine ⟨fun hnil => by rw [hnil] at h1; simp at h1, h2, ?_, ?_, ?_⟩
  · intro st hst
    obtain ⟨j, hj⟩ := List.mem_iff_getElem?.mp hst
    exact hpos j st hj
  · intro i j
    induction j with
    | zero => intro _ _ hij; omega
    | succ j ih =>
      intro st st' hij hst hst'
      have hj := lt_of_getElem? hst'
      obtain ⟨sm, hsm⟩ : ∃ sm, it.lineSearchSteps[j]? = some sm := ⟨_, List.getElem?_eq_getElem (by omega)⟩
      rcases Nat.lt_or_ge i j with hlt | hge
      · exact lt_trans (hstep j sm st' hsm hst') (ih st sm hlt hst hsm)
      · have : i = j := by omega
        subst this
        exact hstep i st st' hst hst'
  · intro hs j
    induction j with
    | zero => intro st hst; rw [h3 st hst]; simp
    | succ j ih =>
      intro st' hst'
      have hj := lt_of_getElem? hst'
      obtain ⟨st, hst⟩ : ∃ st, it.lineSearchSteps[j]? = some st := ⟨_, List.getElem?_eq_getElem (by omega)⟩
      have h' := h4 j st st' hst hst'
      rw [hs] at h'
      simp only at h'
      rw [h', ih st hst, pow_succ]

/-- **C36**. Every iteration reported `SUCCESS` decreases the merit function sufficiently: with the logged `alpha` in
`(0, 1]` and a directional derivative `≤ 0`,
`merit(new) ≤ merit(old) + 1e-4 · alpha · derivative`, hence `merit(new) ≤ merit(old)`. -/
theorem C36_sufficient_decrease (env : Env n D ℝ) (hc : ConsistentP env.p) (prm : NLSParams ℝ) (x0 : Fin n → ℝ)
    (o o' : env.Obj) (out : NLSOutputs ℝ) (calls : List (NLSIteration ℝ))
    (h : solve env prm x0 o = .ok (o', out, calls))
    (k : Nat) (it : NLSIteration ℝ) (hit : out.iterations[k]? = some it) (hs : it.stepResult = .success)
    (a b : env.Obj) (ha : After env prm x0 o k a) (hb : After env prm x0 o (k + 1) b) :
    ∃ st, it.lineSearchSteps.getLast? = some st ∧ 0 < st.alpha ∧ st.alpha ≤ 1 ∧
      it.directionalDerivatives.dF + it.penalty * it.directionalDerivatives.dEquality ≤ 0 ∧
      merit env.p it.penalty b.vars ≤ merit env.p it.penalty a.vars
        + 1 / 10 ^ 4 * st.alpha * (it.directionalDerivatives.dF + it.penalty * it.directionalDerivatives.dEquality) ∧
      merit env.p it.penalty b.vars ≤ merit env.p it.penalty a.vars := by
  have hmem : it ∈ out.iterations := List.mem_of_getElem? hit
  obtain ⟨_, hiff⟩ := C40_only_last_accepted env prm x0 o o' out calls h it hmem
  obtain ⟨st, hst, _, _, hpos, harm⟩ := hiff.mp hs
  obtain ⟨h1, _, h3⟩ := C39_logged_errors env hc prm x0 o o' out calls h k it hit a b ha hb
  obtain ⟨st', hst', he⟩ := h3 hs
  rw [hst] at hst'; cases hst'
  obtain ⟨_, _, hal, _⟩ := C40_alphas env prm x0 o o' out calls h it hmem
  obtain ⟨ha0, ha1⟩ := hal st (List.mem_of_getLast? hst)
  have hd : it.directionalDerivatives.dF + it.penalty * it.directionalDerivatives.dEquality ≤ 0 := not_lt.mp hpos
  have hm : merit env.p it.penalty b.vars ≤ merit env.p it.penalty a.vars
      + 1 / 10 ^ 4 * st.alpha * (it.directionalDerivatives.dF + it.penalty * it.directionalDerivatives.dEquality) := by
    unfold Errors.total DirectionalDerivatives.total armijoC1 at harm
    rw [he, h1, real_lit] at harm
    unfold merit
    simp only [errorsAt] at harm
    push_cast at harm
    linarith
  refine ⟨st, hst, ha0, ha1, hd, hm, le_trans hm ?_⟩
  have : 1 / 10 ^ 4 * st.alpha * (it.directionalDerivatives.dF + it.penalty * it.directionalDerivatives.dEquality) ≤ 0 :=
    mul_nonpos_of_nonneg_of_nonpos (by positivity) hd
  linarith

/-- **C37**. Without equality constraints the cost never increases during a solve: neither between any two iterations
nor from the start to the returned variables, and the logged initial costs are non-increasing. -/
theorem C37_cost_never_increases (env : Env n D ℝ) (hc : ConsistentP env.p) (he : env.p.eqs = []) (prm : NLSParams ℝ)
    (x0 : Fin n → ℝ) (o o' : env.Obj) (out : NLSOutputs ℝ) (calls : List (NLSIteration ℝ))
    (h : solve env prm x0 o = .ok (o', out, calls)) :
    costAt env.p o'.vars ≤ costAt env.p x0 ∧
    (∀ (i j : Nat) (a b : env.Obj), i ≤ j → j ≤ out.iterations.length → After env prm x0 o i a →
      After env prm x0 o j b → costAt env.p b.vars ≤ costAt env.p a.vars) ∧
    (∀ (i j : Nat) it it', i ≤ j → out.iterations[i]? = some it → out.iterations[j]? = some it' →
      it'.errorsInitial.f ≤ it.errorsInitial.f) := by
  obtain ⟨hex, hfirst, hlast⟩ := C38_after env prm x0 o o' out calls h
  have hmono : ∀ (i j : Nat) (a b : env.Obj), i ≤ j → j ≤ out.iterations.length → After env prm x0 o i a →
      After env prm x0 o j b → costAt env.p b.vars ≤ costAt env.p a.vars := by
    intro i j
    induction j with
    | zero =>
      intro a b hij _ ha hb
      have : i = 0 := by omega
      subst this
      rw [(hex 0 (by omega)).unique ha hb]
    | succ j ih =>
      intro a b hij hj ha hb
      rcases Nat.lt_or_ge i (j + 1) with hlt | hge
      · obtain ⟨m, hm, _⟩ := hex j (by omega)
        refine le_trans ?_ (ih a m (by omega) (by omega) ha hm)
        obtain ⟨it, hit⟩ : ∃ it, out.iterations[j]? = some it := ⟨_, List.getElem?_eq_getElem (by omega)⟩
        by_cases hs : it.stepResult = .success
        · obtain ⟨_, _, _, _, _, _, hle⟩ :=
            C36_sufficient_decrease env hc prm x0 o o' out calls h j it hit hs m b hm hb
          have hz : ∀ x : Fin n → ℝ, violationAt env.p x = 0 := by
            intro x; unfold violationAt; rw [he]; rfl
          unfold merit at hle
          rw [hz, hz] at hle
          linarith
        · obtain ⟨_, hmv⟩ := C38_variables_move env prm x0 o o' out calls h j it hit m b hm hb
          rw [hmv hs]
      · have : i = j + 1 := by omega
        subst this
        rw [(hex (j + 1) hj).unique ha hb]
  refine ⟨?_, hmono, ?_⟩
  · obtain ⟨a, ha, _⟩ := hex 0 (by omega)
    obtain ⟨b, hb, _⟩ := hex _ le_rfl
    have := hmono 0 _ a b (by omega) le_rfl ha hb
    rwa [hfirst a ha, hlast b hb] at this
  · intro i j it it' hij hit hit'
    have hj := lt_of_getElem? hit'
    obtain ⟨a, ha, _⟩ := hex i (by omega)
    obtain ⟨a', ha', _⟩ := hex (i + 1) (by omega)
    obtain ⟨b, hb, _⟩ := hex j (by omega)
    obtain ⟨b', hb', _⟩ := hex (j + 1) (by omega)
    rw [(C39_logged_errors env hc prm x0 o o' out calls h i it hit a a' ha ha').1,
      (C39_logged_errors env hc prm x0 o o' out calls h j it' hit' b b' hb hb').1]
    exact hmono i j a b hij (by omega) ha hb

/-- **C41** (in a solve). Under interpolation with a negative directional derivative, a line search that fails with
`FAILURE_INVALID_ALPHA` has logged at least two steps, i.e. the failure does not come from the first (quadratic)
interpolation; and the second logged `alpha` is the minimiser of the parabola through the first step, below
`1 / (2 (1 - 1e-4))`. -/
theorem C41_first_interpolation (env : Env n D ℝ) (prm : NLSParams ℝ) (x0 : Fin n → ℝ) (o o' : env.Obj)
    (out : NLSOutputs ℝ) (calls : List (NLSIteration ℝ)) (h : solve env prm x0 o = .ok (o', out, calls))
    (hstr : prm.lineSearchStrategy = .polynomialApproximation)
    (it : NLSIteration ℝ) (hit : it ∈ out.iterations)
    (hneg : it.directionalDerivatives.total it.penalty < 0) :
    (it.stepResult = .failureInvalidAlpha → 2 ≤ it.lineSearchSteps.length) ∧
    (∀ st0 st1, it.lineSearchSteps[0]? = some st0 → it.lineSearchSteps[1]? = some st1 →
      st1.alpha < 1 / (2 * (1 - 1 / 10 ^ 4)) ∧ ∃ k, 0 < k ∧
        parabola (it.errorsInitial.total it.penalty) (it.directionalDerivatives.total it.penalty) k 1
          = st0.errors.total it.penalty ∧
        ∀ t, parabola (it.errorsInitial.total it.penalty) (it.directionalDerivatives.total it.penalty) k st1.alpha
          ≤ parabola (it.errorsInitial.total it.penalty) (it.directionalDerivatives.total it.penalty) k t) := by
  obtain ⟨hne, _, hfirst, _⟩ := C40_alphas_any env prm x0 o o' out calls h it hit
  obtain ⟨S, T, W, hv⟩ := solve_view h
  obtain ⟨k, hk⟩ := List.mem_iff_getElem?.mp hit
  obtain ⟨_, rfl, hp⟩ := view_info hv hk
  obtain ⟨htr, hout, _⟩ := lsLoop_start _ _ _ _ _ _ _ _ _ _ _ _ hp.ls
  have hf := hout.facts
  rw [hp.isteps] at hne hfirst ⊢
  rw [hp.ideriv, hp.ipenalty] at hneg ⊢
  rw [hp.ires, hp.ipre]
  -- the quadratic interpolation from a rejected first step
  have hquad : ∀ st, (W k).steps[0]? = some st →
      Rejected prm (W k).pre (costDerivative (W k).qp (W k).dx) (S (k + 1)).penalty st →
      ∃ m c, polyAlpha 1 (W k).pre (costDerivative (W k).qp (W k).dx) (S (k + 1)).penalty [st] = .ok (some m) ∧
        0 < c ∧ parabola ((W k).pre.total (S (k + 1)).penalty)
          ((costDerivative (W k).qp (W k).dx).total (S (k + 1)).penalty) c 1 = st.errors.total (S (k + 1)).penalty ∧
        (∀ t, t ≠ m → parabola ((W k).pre.total (S (k + 1)).penalty)
          ((costDerivative (W k).qp (W k).dx).total (S (k + 1)).penalty) c m < parabola ((W k).pre.total (S (k + 1)).penalty)
          ((costDerivative (W k).qp (W k).dx).total (S (k + 1)).penalty) c t) ∧
        0 < m ∧ m < 1 / (2 * (1 - 1 / 10 ^ 4)) ∧ m < 1 := by
    intro st hst hrej
    have ha1 := hfirst st hst
    have hr := hrej.notArmijo
    unfold Armijo armijoC1 at hr
    rw [ha1, real_lit] at hr
    push_cast at hr
    obtain ⟨m, c, h1, h2, h3, _, h5, h6, h7, h8⟩ := C41_quadratic ((W k).pre.total (S (k + 1)).penalty)
      ((costDerivative (W k).qp (W k).dx).total (S (k + 1)).penalty) 1 (st.errors.total (S (k + 1)).penalty) hneg one_pos
      (by linarith [not_le.mp hr])
    refine ⟨m, c, ?_, h2, h3, h5, h6, h7, h8⟩
    unfold polyAlpha
    simp only [le_refl, not_true_eq_false, if_false, if_true]
    rw [ha1, h1]
  constructor
  · intro hr
    by_contra hn
    obtain ⟨_, hrej, hnext⟩ := hf.invalidAlpha hr
    have h1 : (W k).steps.length = 1 := by omega
    obtain ⟨st, hst⟩ := List.length_eq_one_iff.mp h1
    have hst0 : (W k).steps[0]? = some st := by rw [hst]; rfl
    obtain ⟨m, c, e, _, _, _, hm0, _, hm1⟩ := hquad st hst0 (hrej st (by rw [hst]; simp))
    have hb : alphaBefore (W k).steps 1 = 1 := by
      simp [alphaBefore, hst0, hfirst st hst0]
    rw [h1, hb, hst] at hnext
    unfold nextAlpha at hnext
    rw [hstr] at hnext
    simp only [zero_lt_one, if_true] at hnext
    rw [e] at hnext
    simp only at hnext
    rw [if_neg (by simp [not_le.mpr hm0, not_le.mpr hm1])] at hnext
    cases hnext
  · intro st0 st1 h0 h1
    have hj := lt_of_getElem? h1
    have hrej := hf.early 0 (by omega)
    have e0 : (W k).steps[0] = st0 := by
      rw [List.getElem?_eq_getElem (by omega)] at h0; exact Option.some.inj h0
    rw [e0] at hrej
    obtain ⟨m, c, e, hc0, hp1, hmin, hm0, hmu, hm1⟩ := hquad st0 h0 hrej
    have hc := htr.chain 1 hj
    have e1 : (W k).steps[1] = st1 := by
      rw [List.getElem?_eq_getElem hj] at h1; exact Option.some.inj h1
    have hb : alphaBefore (W k).steps 1 = 1 := by
      simp [alphaBefore, h0, hfirst st0 h0]
    have htake : (W k).steps.take 1 = [st0] := by
      rw [List.take_one, List.head?_eq_getElem?, h0]; rfl
    rw [hb, e1, htake] at hc
    unfold nextAlpha at hc
    rw [hstr] at hc
    simp only [zero_lt_one, if_true] at hc
    rw [e] at hc
    simp only at hc
    rw [if_neg (by simp [not_le.mpr hm0, not_le.mpr hm1])] at hc
    have hm : m = st1.alpha := by
      simp only [Except.ok.injEq, Option.some.injEq] at hc; exact hc
    rw [← hm]
    refine ⟨hmu, c, hc0, hp1, ?_⟩
    intro t
    rcases eq_or_ne t m with rfl | ht
    · exact le_rfl
    · exact (hmin t ht).le

/-- **C42** (in a solve). Under interpolation every logged `alpha` from the third on is a stationary point of
nonnegative curvature (up to the `1e-12` of C42) of the one cubic that has the merit's value and slope at 0 and its
values at the two previous step sizes. -/
theorem C42_later_interpolations (env : Env n D ℝ) (prm : NLSParams ℝ) (x0 : Fin n → ℝ) (o o' : env.Obj)
    (out : NLSOutputs ℝ) (calls : List (NLSIteration ℝ)) (h : solve env prm x0 o = .ok (o', out, calls))
    (hstr : prm.lineSearchStrategy = .polynomialApproximation)
    (it : NLSIteration ℝ) (hit : it ∈ out.iterations) (j : Nat) (st0 st1 st2 : LineSearchStep ℝ)
    (h0 : it.lineSearchSteps[j]? = some st0) (h1 : it.lineSearchSteps[j + 1]? = some st1)
    (h2 : it.lineSearchSteps[j + 2]? = some st2) :
    let phi0 := it.errorsInitial.total it.penalty
    let dphi0 := it.directionalDerivatives.total it.penalty
    ∃ a b, cubicPoly phi0 dphi0 a b st0.alpha = st0.errors.total it.penalty ∧
      cubicPoly phi0 dphi0 a b st1.alpha = st1.errors.total it.penalty ∧
      a ≠ 0 ∧ 0 ≤ 2 * b + 6 * a * st2.alpha ∧
      |dphi0 + 2 * b * st2.alpha + 3 * a * st2.alpha ^ 2| * (3 * |a|) ≤ 1 / 10 ^ 12 := by
  intro phi0 dphi0
  obtain ⟨_, _, hpos, hdec, _⟩ := C40_alphas env prm x0 o o' out calls h it hit
  obtain ⟨S, T, W, hv⟩ := solve_view h
  obtain ⟨k, hk⟩ := List.mem_iff_getElem?.mp hit
  obtain ⟨_, hinfo, hp⟩ := view_info hv hk
  obtain ⟨htr, hout, _⟩ := lsLoop_start _ _ _ _ _ _ _ _ _ _ _ _ hp.ls
  have ha1 := (hpos st1 (List.mem_of_getElem? h1)).1
  have ha01 := hdec j (j + 1) st0 st1 (by omega) h0 h1
  have hsteps : it.lineSearchSteps = (W k).steps := by rw [hinfo]; exact hp.isteps
  rw [hsteps] at h0 h1 h2
  have hj := lt_of_getElem? h2
  have hc := htr.chain (j + 2) hj
  have e2 : (W k).steps[j + 2] = st2 := by
    rw [List.getElem?_eq_getElem hj] at h2; exact Option.some.inj h2
  have htake : ((W k).steps.take (j + 2)).reverse = st1 :: st0 :: ((W k).steps.take j).reverse := by
    rw [show j + 2 = j + 1 + 1 by omega, List.take_add_one, h1, List.take_add_one, h0]
    simp
  have hphi : phi0 = (W k).pre.total (S (k + 1)).penalty := by
    simp only [phi0]; rw [hinfo, hp.ipre, hp.ipenalty]
  have hdphi : dphi0 = (costDerivative (W k).qp (W k).dx).total (S (k + 1)).penalty := by
    simp only [dphi0]; rw [hinfo, hp.ideriv, hp.ipenalty]
  have hpen : it.penalty = (S (k + 1)).penalty := by rw [hinfo, hp.ipenalty]
  rw [e2] at hc
  unfold nextAlpha at hc
  rw [hstr] at hc
  simp only [Nat.zero_lt_succ, if_true] at hc
  unfold polyAlpha at hc
  rw [if_neg (by omega), if_neg (by omega), htake] at hc
  simp only at hc
  rw [← hphi, ← hdphi, ← hpen] at hc
  obtain ⟨a, b, hab, hu⟩ := (C42_coefficients phi0 dphi0 st0.alpha (st0.errors.total it.penalty) st1.alpha
    (st1.errors.total it.penalty)).1 ⟨ha1, ha01⟩
  rw [hab] at hc
  simp only at hc
  obtain ⟨hi0, hi1⟩ := (hu a b).mpr ⟨rfl, rfl⟩
  refine ⟨a, b, hi0, hi1, ?_⟩
  cases hm : cubicApproxMinimum dphi0 (a, b) with
  | none => rw [hm] at hc; cases hc
  | some t =>
    rw [hm] at hc
    simp only at hc
    split_ifs at hc
    · cases hc
    have ht : t = st2.alpha := by
      simp only [Except.ok.injEq, Option.some.injEq] at hc; exact hc
    rw [← ht]
    obtain ⟨q1, q2, q3, _⟩ := (C42_stationary dphi0 a b).1 t hm
    exact ⟨q1, q2, q3⟩

/-- **C42** (no failures). Under interpolation with a negative directional derivative, a line search never fails with
`FAILURE_INVALID_ALPHA` in exact arithmetic; every logged `alpha` is less than 0.51 times the previous one, but not much
smaller than the minimiser of the parabola through the previous step: at least `1/4.1` of the slope over that parabola's
quadratic coefficient (the minimiser is at `1/2` of it). -/
theorem C42_never_fails (env : Env n D ℝ) (prm : NLSParams ℝ) (x0 : Fin n → ℝ) (o o' : env.Obj)
    (out : NLSOutputs ℝ) (calls : List (NLSIteration ℝ)) (h : solve env prm x0 o = .ok (o', out, calls))
    (hstr : prm.lineSearchStrategy = .polynomialApproximation)
    (it : NLSIteration ℝ) (hit : it ∈ out.iterations)
    (hneg : it.directionalDerivatives.total it.penalty < 0) :
    it.stepResult ≠ .failureInvalidAlpha ∧
    ∀ (j : Nat) st st', it.lineSearchSteps[j]? = some st → it.lineSearchSteps[j + 1]? = some st' →
      st'.alpha < 51 / 100 * st.alpha ∧
      - it.directionalDerivatives.total it.penalty * st.alpha ^ 2
        ≤ 41 / 10 * st'.alpha * (st.errors.total it.penalty - it.errorsInitial.total it.penalty
          - it.directionalDerivatives.total it.penalty * st.alpha) := by
  set phi0 := it.errorsInitial.total it.penalty with hphi0
  set dphi0 := it.directionalDerivatives.total it.penalty with hdphi0
  obtain ⟨hlen2, hpar⟩ := C41_first_interpolation env prm x0 o o' out calls h hstr it hit hneg
  rw [← hphi0, ← hdphi0] at hpar
  obtain ⟨_, _, hpos, hdec, _⟩ := C40_alphas env prm x0 o o' out calls h it hit
  obtain ⟨_, _, hfirst, _⟩ := C40_alphas_any env prm x0 o o' out calls h it hit
  obtain ⟨S, T, W, hv⟩ := solve_view h
  obtain ⟨k, hk⟩ := List.mem_iff_getElem?.mp hit
  obtain ⟨_, hinfo, hp⟩ := view_info hv hk
  obtain ⟨htr, hout, -⟩ := lsLoop_start _ _ _ _ _ _ _ _ _ _ _ _ hp.ls
  have hf := hout.facts
  have hsteps : it.lineSearchSteps = (W k).steps := by rw [hinfo]; exact hp.isteps
  have hphi : phi0 = (W k).pre.total (S (k + 1)).penalty := by
    rw [hphi0, hinfo, hp.ipre, hp.ipenalty]
  have hdphi : dphi0 = (costDerivative (W k).qp (W k).dx).total (S (k + 1)).penalty := by
    rw [hdphi0, hinfo, hp.ideriv, hp.ipenalty]
  have hpen : it.penalty = (S (k + 1)).penalty := by rw [hinfo, hp.ipenalty]
  rw [← hsteps] at htr hf
  -- rejected steps, in numbers
  have hrejNum : ∀ st, Rejected prm (W k).pre (costDerivative (W k).qp (W k).dx) (S (k + 1)).penalty st →
      phi0 + 1 / 10 ^ 4 * st.alpha * dphi0 < st.errors.total it.penalty := by
    intro st hr
    have hr := hr.notArmijo
    unfold Armijo armijoC1 at hr
    rw [real_lit, ← hphi, ← hdphi, ← hpen] at hr
    push_cast at hr
    linarith [not_le.mp hr]
  -- the cubic interpolation from two rejected steps
  have hstage : ∀ (j : Nat) st0 st1, it.lineSearchSteps[j]? = some st0 → it.lineSearchSteps[j + 1]? = some st1 →
      phi0 + 1 / 10 ^ 4 * st1.alpha * dphi0 < st1.errors.total it.penalty →
      (∃ c, parabola phi0 dphi0 c st0.alpha = st0.errors.total it.penalty ∧
        parabola phi0 dphi0 c st1.alpha < st1.errors.total it.penalty ∧ 0 < c ∧ st1.alpha < 51 / 100 * st0.alpha) →
      ∃ t c', polyAlpha (j + 2) (W k).pre (costDerivative (W k).qp (W k).dx) (S (k + 1)).penalty
          (it.lineSearchSteps.take (j + 2)) = .ok (some t) ∧ 0 < t ∧ t < 51 / 100 * st1.alpha ∧
        parabola phi0 dphi0 c' st1.alpha = st1.errors.total it.penalty ∧
        (∀ phi, phi0 + 1 / 10 ^ 4 * t * dphi0 < phi → parabola phi0 dphi0 c' t < phi) ∧ 0 < c' ∧
        - dphi0 * st1.alpha ^ 2 ≤ 41 / 10 * t * (st1.errors.total it.penalty - phi0 - dphi0 * st1.alpha) := by
    intro j st0 st1 h0 h1 hr1 ⟨c, hc0, hc1, hcpos, hshrink⟩
    have ha1 := (hpos st1 (List.mem_of_getElem? h1)).1
    have ha01 := hdec j (j + 1) st0 st1 (by omega) h0 h1
    have htake : (it.lineSearchSteps.take (j + 2)).reverse = st1 :: st0 :: (it.lineSearchSteps.take j).reverse := by
      rw [show j + 2 = j + 1 + 1 by omega, List.take_add_one, h1, List.take_add_one, h0]
      simp
    obtain ⟨a, b, hab, hu⟩ := (C42_coefficients phi0 dphi0 st0.alpha (st0.errors.total it.penalty) st1.alpha
      (st1.errors.total it.penalty)).1 ⟨ha1, ha01⟩
    obtain ⟨hi0, hi1⟩ := (hu a b).mpr ⟨rfl, rfl⟩
    have e0 : a * st0.alpha + b = c := by
      have hne : st0.alpha ^ 2 ≠ 0 := pow_ne_zero 2 (lt_trans ha1 ha01).ne'
      have : st0.alpha ^ 2 * (a * st0.alpha + b) = st0.alpha ^ 2 * c := by
        have := hi0.trans hc0.symm
        unfold cubicPoly parabola at this
        linarith
      exact mul_left_cancel₀ hne this
    have e1 : c < a * st1.alpha + b := by
      have hsq : 0 < st1.alpha ^ 2 := by positivity
      have : st1.alpha ^ 2 * c < st1.alpha ^ 2 * (a * st1.alpha + b) := by
        rw [← hi1] at hc1
        unfold cubicPoly parabola at hc1
        linarith
      exact lt_of_mul_lt_mul_left this hsq.le
    have ha : a < 0 := by
      have : 0 < a * (st1.alpha - st0.alpha) := by rw [← e0] at e1; linarith
      exact neg_of_mul_pos_left this (by linarith)
    obtain ⟨t, ht, ht0, ht1, -, hlow, hnext⟩ := C42_contracts phi0 dphi0 a b st1.alpha hneg ha1 ha (by rw [hi1]; exact hr1)
    refine ⟨t, a * st1.alpha + b, ?_, ht0, ht1, ?_, hnext, lt_trans hcpos e1, ?_⟩
    · unfold polyAlpha
      rw [if_neg (by omega), if_neg (by omega), htake]
      simp only
      rw [← hphi, ← hdphi, ← hpen, hab]
      simp only
      rw [ht]
    · rw [← hi1]; unfold parabola cubicPoly; ring
    · have hb : b ≤ 41 / 20 * (a * st1.alpha + b) := by
        have q1 : -a * (49 * st1.alpha) ≤ -a * (51 * (st0.alpha - st1.alpha)) :=
          mul_le_mul_of_nonneg_left (by linarith) (by linarith)
        have q2 : -a * (st0.alpha - st1.alpha) ≤ a * st1.alpha + b := by linarith
        linarith
      have q3 : -dphi0 ≤ 41 / 10 * t * (a * st1.alpha + b) := by
        have := mul_le_mul_of_nonneg_right hb ht0.le
        linarith
      have q4 : st1.errors.total it.penalty - phi0 - dphi0 * st1.alpha = (a * st1.alpha + b) * st1.alpha ^ 2 := by
        rw [← hi1]; unfold cubicPoly; ring
      rw [q4]
      have := mul_le_mul_of_nonneg_right q3 (sq_nonneg st1.alpha)
      linarith
  -- the curvatures increase
  have hkey : ∀ (j : Nat) st0 st1, it.lineSearchSteps[j]? = some st0 → it.lineSearchSteps[j + 1]? = some st1 →
      phi0 + 1 / 10 ^ 4 * st1.alpha * dphi0 < st1.errors.total it.penalty →
      ∃ c, parabola phi0 dphi0 c st0.alpha = st0.errors.total it.penalty ∧
        parabola phi0 dphi0 c st1.alpha < st1.errors.total it.penalty ∧ 0 < c ∧ st1.alpha < 51 / 100 * st0.alpha := by
    intro j
    induction j with
    | zero =>
      intro st0 st1 h0 h1 hr1
      obtain ⟨hlt, c, hc0, hc1, hmin⟩ := hpar st0 st1 h0 h1
      refine ⟨c, by rw [hfirst st0 h0]; exact hc1, lt_trans ?_ hr1, hc0, by rw [hfirst st0 h0]; norm_num at hlt ⊢; linarith⟩
      have ha1 := (hpos st1 (List.mem_of_getElem? h1)).1
      have := hmin (-dphi0 / (2 * c))
      have e (t : ℝ) : parabola phi0 dphi0 c t = c * (t - -dphi0 / (2 * c)) ^ 2 + (phi0 - dphi0 ^ 2 / (4 * c)) := by
        unfold parabola; field_simp; ring
      rw [e, e] at this
      simp only [sub_self] at this
      have h3 : c * (st1.alpha - -dphi0 / (2 * c)) ^ 2 ≤ 0 := by linarith
      have h4 : (st1.alpha - -dphi0 / (2 * c)) ^ 2 = 0 := by
        have := sq_nonneg (st1.alpha - -dphi0 / (2 * c))
        nlinarith
      have hst1 : st1.alpha = -dphi0 / (2 * c) := by linarith [pow_eq_zero_iff (two_ne_zero) |>.mp h4]
      have h5 : c * st1.alpha = -dphi0 / 2 := by rw [hst1]; field_simp
      unfold parabola
      have h6 : c * st1.alpha ^ 2 = -dphi0 / 2 * st1.alpha := by rw [← h5]; ring
      rw [h6]
      nlinarith
    | succ j ih =>
      intro st1 st2 h1 h2 hr2
      have hj := lt_of_getElem? h2
      obtain ⟨st0, h0⟩ : ∃ st, it.lineSearchSteps[j]? = some st := ⟨_, List.getElem?_eq_getElem (by omega)⟩
      have hr1 := hrejNum _ (hf.early (j + 1) (by omega))
      have e1 : it.lineSearchSteps[j + 1]'(by omega) = st1 := by
        rw [List.getElem?_eq_getElem (by omega)] at h1; exact Option.some.inj h1
      rw [e1] at hr1
      obtain ⟨t, c', hpoly, ht0, ht1, hc', hnext, hcpos, -⟩ := hstage j st0 st1 h0 h1 hr1 (ih st0 st1 h0 h1 hr1)
      have hc := htr.chain (j + 2) hj
      have e2 : it.lineSearchSteps[j + 2] = st2 := by
        rw [List.getElem?_eq_getElem hj] at h2; exact Option.some.inj h2
      rw [e2] at hc
      unfold nextAlpha at hc
      rw [hstr] at hc
      simp only [Nat.zero_lt_succ, if_true] at hc
      rw [hpoly] at hc
      simp only at hc
      split_ifs at hc
      · cases hc
      have ht : t = st2.alpha := by
        simp only [Except.ok.injEq, Option.some.injEq] at hc; exact hc
      refine ⟨c', hc', ?_, hcpos, by rw [← ht]; exact ht1⟩
      rw [← ht]
      exact hnext _ (by rw [ht]; exact hr2)
  refine ⟨?_, ?_⟩
  · intro hres
    have hlen := hlen2 hres
    obtain ⟨j, hj⟩ : ∃ j, it.lineSearchSteps.length = j + 2 := ⟨it.lineSearchSteps.length - 2, by omega⟩
    obtain ⟨st0, h0⟩ : ∃ st, it.lineSearchSteps[j]? = some st := ⟨_, List.getElem?_eq_getElem (by omega)⟩
    obtain ⟨st1, h1⟩ : ∃ st, it.lineSearchSteps[j + 1]? = some st := ⟨_, List.getElem?_eq_getElem (by omega)⟩
    have hres' : (W k).res = .failureInvalidAlpha := by rw [← hres, hinfo]; exact hp.ires.symm
    obtain ⟨-, hrej, hc⟩ := hf.invalidAlpha hres'
    have hr1 := hrejNum _ (hrej st1 (List.mem_of_getElem? h1))
    obtain ⟨t, c', hpoly, ht0, ht1, -⟩ := hstage j st0 st1 h0 h1 hr1 (hkey j st0 st1 h0 h1 hr1)
    have hbefore : alphaBefore it.lineSearchSteps (j + 2) = st1.alpha := by simp [alphaBefore, h1]
    have hall : it.lineSearchSteps.take (j + 2) = it.lineSearchSteps := by rw [← hj]; simp
    rw [hall] at hpoly
    rw [hj, hbefore] at hc
    unfold nextAlpha at hc
    rw [hstr] at hc
    simp only [Nat.zero_lt_succ, if_true] at hc
    rw [hpoly] at hc
    simp only at hc
    have ha1 := (hpos st1 (List.mem_of_getElem? h1)).1
    rw [if_neg (by simp [not_le.mpr ht0]; linarith)] at hc
    cases hc
  · intro j
    cases j with
    | zero =>
      intro st st' h0 h1
      obtain ⟨this, c, hc0, hc1, hmin⟩ := hpar st st' h0 h1
      rw [hfirst st h0]
      refine ⟨by norm_num at this ⊢; linarith, ?_⟩
      have ha1 := (hpos st' (List.mem_of_getElem? h1)).1
      have hst1 : st'.alpha = -dphi0 / (2 * c) := by
        have := hmin (-dphi0 / (2 * c))
        have e (t : ℝ) : parabola phi0 dphi0 c t = c * (t - -dphi0 / (2 * c)) ^ 2 + (phi0 - dphi0 ^ 2 / (4 * c)) := by
          unfold parabola; field_simp; ring
        rw [e, e] at this
        simp only [sub_self] at this
        have h3 : c * (st'.alpha - -dphi0 / (2 * c)) ^ 2 ≤ 0 := by linarith
        have h4 : (st'.alpha - -dphi0 / (2 * c)) ^ 2 = 0 := by
          have := sq_nonneg (st'.alpha - -dphi0 / (2 * c))
          nlinarith
        linarith [pow_eq_zero_iff (two_ne_zero) |>.mp h4]
      have h5 : c * st'.alpha = -dphi0 / 2 := by rw [hst1]; field_simp
      have h6 : st.errors.total it.penalty - phi0 - dphi0 * 1 = c := by rw [← hc1]; unfold parabola; ring
      rw [h6]
      nlinarith
    | succ j =>
      intro st1 st2 h1 h2
      have hj := lt_of_getElem? h2
      obtain ⟨st0, h0⟩ : ∃ st, it.lineSearchSteps[j]? = some st := ⟨_, List.getElem?_eq_getElem (by omega)⟩
      have hr1 := hrejNum _ (hf.early (j + 1) (by omega))
      have e1 : it.lineSearchSteps[j + 1]'(by omega) = st1 := by
        rw [List.getElem?_eq_getElem (by omega)] at h1; exact Option.some.inj h1
      rw [e1] at hr1
      obtain ⟨t, c', hpoly, ht0, ht1, -, -, -, hlow⟩ := hstage j st0 st1 h0 h1 hr1 (hkey j st0 st1 h0 h1 hr1)
      have hc := htr.chain (j + 2) hj
      have e2 : it.lineSearchSteps[j + 2] = st2 := by
        rw [List.getElem?_eq_getElem hj] at h2; exact Option.some.inj h2
      rw [e2] at hc
      unfold nextAlpha at hc
      rw [hstr] at hc
      simp only [Nat.zero_lt_succ, if_true] at hc
      rw [hpoly] at hc
      simp only at hc
      split_ifs at hc
      · cases hc
      have ht : t = st2.alpha := by
        simp only [Except.ok.injEq, Option.some.injEq] at hc; exact hc
      rw [← ht]; exact ⟨ht1, hlow⟩

/-- **C42** (only cause of failure). In exact arithmetic `FAILURE_INVALID_ALPHA` occurs only under interpolation, when the
directional derivative of the merit is exactly zero, and then after the first step. -/
theorem C42_invalid_alpha_cause (env : Env n D ℝ) (prm : NLSParams ℝ) (x0 : Fin n → ℝ) (o o' : env.Obj)
    (out : NLSOutputs ℝ) (calls : List (NLSIteration ℝ)) (h : solve env prm x0 o = .ok (o', out, calls))
    (it : NLSIteration ℝ) (hit : it ∈ out.iterations) (hres : it.stepResult = .failureInvalidAlpha) :
    prm.lineSearchStrategy = .polynomialApproximation ∧ it.directionalDerivatives.total it.penalty = 0 ∧
    it.lineSearchSteps.length = 1 := by
  obtain ⟨hne, _, hfirst, _⟩ := C40_alphas_any env prm x0 o o' out calls h it hit
  obtain ⟨S, T, W, hv⟩ := solve_view h
  obtain ⟨k, hk⟩ := List.mem_iff_getElem?.mp hit
  obtain ⟨_, hinfo, hp⟩ := view_info hv hk
  obtain ⟨htr, hout, -⟩ := lsLoop_start _ _ _ _ _ _ _ _ _ _ _ _ hp.ls
  have hsteps : it.lineSearchSteps = (W k).steps := by rw [hinfo]; exact hp.isteps
  have hres' : (W k).res = .failureInvalidAlpha := by rw [← hres, hinfo]; exact hp.ires.symm
  obtain ⟨-, hrej, hc⟩ := hout.facts.invalidAlpha hres'
  have hdphi : (costDerivative (W k).qp (W k).dx).total (S (k + 1)).penalty = it.directionalDerivatives.total it.penalty := by
    rw [hinfo, hp.ideriv, hp.ipenalty]
  rw [← hsteps] at htr hrej hc
  have hstr : prm.lineSearchStrategy = .polynomialApproximation := by
    cases hs : prm.lineSearchStrategy with
    | polynomialApproximation => rfl
    | armijoBacktrack =>
      unfold nextAlpha at hc
      rw [hs] at hc
      simp only at hc
      split_ifs at hc <;> cases hc
  obtain ⟨st, hst⟩ : ∃ st, it.lineSearchSteps[0]? = some st := ⟨_, List.getElem?_eq_getElem hne⟩
  have hz : it.directionalDerivatives.total it.penalty = 0 := by
    have h1 := (hrej st (List.mem_of_getElem? hst)).notPositive
    rw [hdphi] at h1
    by_contra hn
    exact (C42_never_fails env prm x0 o o' out calls h hstr it hit (lt_of_le_of_ne (not_lt.mp h1) hn)).1 hres
  refine ⟨hstr, hz, ?_⟩
  by_contra hlen
  have hc1 := htr.chain 1 (by omega)
  have htake : it.lineSearchSteps.take 1 = [st] := by
    rw [List.take_one, List.head?_eq_getElem?, hst]; rfl
  rw [htake] at hc1
  unfold nextAlpha at hc1
  rw [hstr] at hc1
  simp only [zero_lt_one, if_true] at hc1
  unfold polyAlpha at hc1
  simp only [le_refl, not_true_eq_false, if_false, if_true] at hc1
  rw [hdphi, hz, hfirst st hst] at hc1
  unfold quadraticApproxMinimum at hc1
  simp only [lt_irrefl, false_or, zero_mul, neg_zero, zero_div] at hc1
  split_ifs at hc1 with h1
  · cases hc1
  · simp only [le_refl, true_or, or_true, if_true] at hc1
    cases hc1

end MiniOpt.Props
