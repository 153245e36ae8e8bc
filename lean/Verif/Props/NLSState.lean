import Verif.Props.NLSDescent

/-!
# C43, C44: damping, optimizer state and penalty along a solve

Concrete runs meeting the hypotheses of the theorems below: `Props/NLSExamples.lean` (and the examples
beside each theorem).
-/

set_option autoImplicit false

namespace MiniOpt.Props

open MiniOpt.Spec MiniOpt.NLS

section any

variable {α : Type} [Scalar α] {n D : Nat}

/-- **C43** (state machine, any arithmetic). The first iteration uses `lambda_initial` in state `NOMINAL`. Each
iteration then determines the logged state and the next `lambda`: a success returns to `NOMINAL` and multiplies
`lambda` by the success (or, when restoring, restore) factor, but not below `min_lambda`; running out of line-search
iterations or a positive derivative enters (or keeps) `ATTEMPTING_RESTORE_LM` and raises `lambda`; the two other
failures change neither. -/
theorem C43_state_machine (env : Env n D α) (prm : NLSParams α) (x0 : Fin n → α) (o o' : env.Obj)
    (out : NLSOutputs α) (calls : List (NLSIteration α)) (h : solve env prm x0 o = .ok (o', out, calls)) :
    (∀ it, out.iterations[0]? = some it → it.lambda = prm.lambdaInitial) ∧
    ∀ (k : Nat) it, out.iterations[k]? = some it →
      let before := stateBefore out.iterations k
      let next := out.iterations[k + 1]?.map (·.lambda)
      match it.stepResult with
      | .success => it.optimizerState = .nominal ∧ ∀ l, next = some l →
          l = cmax (it.lambda * (match before with
            | .nominal => prm.lambdaDecreaseOnSuccess
            | .attemptingRestoreLM => prm.lambdaDecreaseOnRestore)) prm.minLambda
      | .maxIterations | .positiveDerivative => it.optimizerState = .attemptingRestoreLM ∧
          ∀ l, next = some l → l = raisedLambda prm before it.lambda ∧ ¬ prm.maxLambda < l
      | .firstOrderSatisfied => it.optimizerState = before ∧ next = none
      | .failureNonFiniteCost | .failureInvalidAlpha => it.optimizerState = before ∧
          ∀ l, next = some l → l = it.lambda := by
  obtain ⟨S, T, W, hv⟩ := solve_view h
  constructor
  · intro it hit
    obtain ⟨_, rfl, hp⟩ := view_info hv hit
    rw [hp.ilambda, hv.start]; rfl
  · intro k it hit before next
    obtain ⟨hk, rfl, hp⟩ := view_info hv hit
    have hst : before = (S k).obj.state := (view_state hv k (by omega)).symm
    have hnext : ∀ l, next = some l → l = nextLambda prm before (W k).res (S k).lambda := by
      intro l hl
      obtain ⟨it', hit', rfl⟩ := Option.map_eq_some_iff.mp hl
      obtain ⟨_, rfl, hp'⟩ := view_info hv hit'
      rw [hp'.ilambda, hp.lambda, hst]
    have hexit : ∀ l, next = some l → (W k).exit = none := by
      intro l hl
      obtain ⟨it', hit', rfl⟩ := Option.map_eq_some_iff.mp hl
      have hk' := lt_of_getElem? hit'
      have hT := hv.cont k hk'
      rw [hp.term] at hT
      unfold finish at hT
      split at hT
      · exact hT
      · split at hT
        · cases hT
        · rename_i hx; exact hx
    have hx := hp.exit
    rw [hp.lambda, ← hst] at hx
    have hs' := hp.istate.trans hp.state
    rw [← hst] at hs'
    rw [hp.ires, hp.ilambda, hs']
    cases hr : (W k).res with
    | success =>
      refine ⟨rfl, fun l hl => ?_⟩
      rw [hnext l hl, hr]
      cases before <;> rfl
    | maxIterations =>
      refine ⟨rfl, fun l hl => ?_⟩
      have e := hnext l hl
      have e2 := hexit l hl
      rw [hr] at e
      rw [hx, hr] at e2
      have e3 : nextLambda prm before .maxIterations (S k).lambda = raisedLambda prm before (S k).lambda := by
        cases before <;> rfl
      refine ⟨by rw [e, e3], ?_⟩
      intro hlt
      rw [e] at hlt
      simp only [exitOf, if_pos hlt, reduceCtorEq] at e2
    | positiveDerivative =>
      refine ⟨rfl, fun l hl => ?_⟩
      have e := hnext l hl
      have e2 := hexit l hl
      rw [hr] at e
      rw [hx, hr] at e2
      have e3 : nextLambda prm before .positiveDerivative (S k).lambda = raisedLambda prm before (S k).lambda := by
        cases before <;> rfl
      refine ⟨by rw [e, e3], ?_⟩
      intro hlt
      rw [e] at hlt
      simp only [exitOf, if_pos hlt, reduceCtorEq] at e2
    | firstOrderSatisfied =>
      refine ⟨rfl, ?_⟩
      cases hn : next with
      | none => rfl
      | some l =>
        have e2 := hexit l hn
        rw [hx, hr] at e2
        cases e2
    | failureNonFiniteCost =>
      refine ⟨rfl, fun l hl => ?_⟩
      rw [hnext l hl, hr]
      cases before <;> rfl
    | failureInvalidAlpha =>
      refine ⟨rfl, fun l hl => ?_⟩
      rw [hnext l hl, hr]
      cases before <;> rfl

/-- **C44** (any arithmetic). The penalty of an iteration is the previous one (initially
`equality_penalty_initial`), unless the problem has equality constraints and the value wanted for this iteration's
QP solution is larger: then it is that value times the scale factor. It is always positive. -/
theorem C44_penalty_update (env : Env n D α) (prm : NLSParams α) (x0 : Fin n → α) (o o' : env.Obj)
    (out : NLSOutputs α) (calls : List (NLSIteration α)) (h : solve env prm x0 o = .ok (o', out, calls))
    (k : Nat) (it : NLSIteration α) (hit : out.iterations[k]? = some it) (b : env.Obj)
    (hb : After env prm x0 o (k + 1) b) :
    let prev := if k = 0 then prm.equalityPenaltyInitial
      else ((out.iterations[k - 1]?).map (·.penalty)).getD prm.equalityPenaltyInitial
    let wanted := selectPenalty b.qp b.dx (multipliers it.qpOutputs) prm.equalityPenaltyRho
    it.penalty = (if env.p.eqs ≠ [] ∧ prev < wanted then wanted * prm.equalityPenaltyScaleFactor else prev) ∧
    0 < it.penalty := by
  intro prev wanted
  obtain ⟨S, T, W, hv⟩ := solve_view h
  obtain ⟨hk, hinfo, hp⟩ := view_info hv hit
  have hprev : prev = (S k).penalty := by
    simp only [prev]
    cases k with
    | zero => rw [if_pos rfl, hv.start]; rfl
    | succ j =>
      rw [if_neg (by omega), show j + 1 - 1 = j by omega, hv.log j (by omega)]
      simp only [Option.map_some, Option.getD_some]
      exact (hv.pass j (by omega)).ipenalty
  have hw : wanted = selectPenalty (W k).qp (W k).dx (multipliers (W k).out) prm.equalityPenaltyRho := by
    simp only [wanted]
    rw [(hv.after (k + 1) (by omega) b).mp hb, hp.qp, hp.dx, hinfo, hp.iout]
  have hpen := hp.penalty
  unfold raisePenalty at hpen
  rw [hinfo, hp.ipenalty]
  refine ⟨?_, hp.penPos⟩
  rw [hpen, hw, hprev]
  by_cases he : env.p.eqs = []
  · simp [he]
  · rw [if_pos he]
    dsimp only
    by_cases hlt : (S k).penalty < selectPenalty (W k).qp (W k).dx (multipliers (W k).out) prm.equalityPenaltyRho
    · rw [if_pos hlt, if_pos ⟨he, hlt⟩]
    · rw [if_neg hlt, if_neg fun hh => hlt hh.2]

end any

variable {n D : Nat}

/-- **C43** (limits). In exact arithmetic every `lambda` used lies in `[min_lambda, max_lambda]` (also when
`min_lambda` is negative), a success never raises a nonnegative `lambda`, and a line-search failure multiplies a
nonnegative one by at least ten. -/
theorem C43_lambda_limits (env : Env n D ℝ) (prm : NLSParams ℝ) (x0 : Fin n → ℝ) (o o' : env.Obj)
    (out : NLSOutputs ℝ) (calls : List (NLSIteration ℝ)) (h : solve env prm x0 o = .ok (o', out, calls)) :
    (∀ it ∈ out.iterations, prm.minLambda ≤ it.lambda ∧ it.lambda ≤ prm.maxLambda) ∧
    ∀ (k : Nat) it it', out.iterations[k]? = some it → out.iterations[k + 1]? = some it' →
      (it.stepResult = .success → 0 ≤ it.lambda → it'.lambda ≤ it.lambda) ∧
      (it.stepResult = .maxIterations ∨ it.stepResult = .positiveDerivative →
        it.lambda ≤ it'.lambda ∧ (0 ≤ it.lambda → 10 * it.lambda ≤ it'.lambda) ∧
        (stateBefore out.iterations k = .nominal → prm.lambdaFailureInit ≤ it'.lambda)) := by
  obtain ⟨hfirst, hstep⟩ := C43_state_machine env prm x0 o o' out calls h
  obtain ⟨S, T, W, hv⟩ := solve_view h
  have hv' := hv.prmOk
  have hinv : ∀ (k : Nat) it, out.iterations[k]? = some it → prm.minLambda ≤ it.lambda ∧ it.lambda ≤ prm.maxLambda ∧
      (stateBefore out.iterations k = .attemptingRestoreLM → 0 ≤ it.lambda) := by
    intro k
    induction k with
    | zero =>
      intro it hit
      rw [hfirst it hit]
      exact ⟨hv'.lambdaInitial.1, hv'.lambdaInitial.2, fun hs => by simp [stateBefore] at hs⟩
    | succ k ih =>
      intro it' hit'
      have hk := lt_of_getElem? hit'
      obtain ⟨it, hit⟩ : ∃ it, out.iterations[k]? = some it := ⟨_, List.getElem?_eq_getElem (by omega)⟩
      obtain ⟨h1, h2, h3⟩ := ih it hit
      have hs := hstep k it hit
      simp only at hs
      have hnext : out.iterations[k + 1]?.map (·.lambda) = some it'.lambda := by rw [hit']; rfl
      have hbef : stateBefore out.iterations (k + 1) = it.optimizerState := by
        simp [stateBefore, hit]
      rw [hbef]
      have hraise : ∀ hres : it'.lambda = raisedLambda prm (stateBefore out.iterations k) it.lambda ∧
          ¬ prm.maxLambda < it'.lambda, prm.minLambda ≤ it'.lambda ∧ it'.lambda ≤ prm.maxLambda ∧ 0 ≤ it'.lambda := by
        rintro ⟨e, hle⟩
        refine ⟨?_, not_lt.mp hle, ?_⟩
        · rw [e]
          unfold raisedLambda
          cases hb : stateBefore out.iterations k with
          | nominal =>
            simp only [real_cmax, real_lit]
            push_cast
            rcases le_total 0 it.lambda with hl | hl
            · exact le_trans h1 (le_trans (by linarith) (le_max_right _ _))
            · exact le_trans h1 (le_trans hl (le_trans hv'.lambdaFailureInit (le_max_left _ _)))
          | attemptingRestoreLM =>
            simp only [real_lit]
            push_cast
            have := h3 hb
            linarith
        · rw [e]
          unfold raisedLambda
          cases hb : stateBefore out.iterations k with
          | nominal =>
            simp only [real_cmax]
            exact le_trans hv'.lambdaFailureInit (le_max_left _ _)
          | attemptingRestoreLM =>
            simp only [real_lit]
            push_cast
            have := h3 hb
            linarith
      cases hr : it.stepResult with
      | success =>
        rw [hr] at hs
        simp only at hs
        have e := hs.2 _ hnext
        rw [hs.1]
        have hdec : ∀ dec : ℝ, 0 ≤ dec → dec < 1 → it'.lambda = cmax (it.lambda * dec) prm.minLambda →
            prm.minLambda ≤ it'.lambda ∧ it'.lambda ≤ prm.maxLambda := by
          intro dec h0 h1' e
          rw [e, real_cmax]
          refine ⟨le_max_right _ _, max_le ?_ hv'.minLambda⟩
          rcases le_total 0 it.lambda with hl | hl
          · nlinarith
          · exact le_trans (mul_nonpos_of_nonpos_of_nonneg hl h0) hv'.maxLambda
        have := by
          cases hb : stateBefore out.iterations k with
          | nominal => rw [hb] at e; exact hdec _ hv'.lambdaDecreaseOnSuccess.1 hv'.lambdaDecreaseOnSuccess.2 e
          | attemptingRestoreLM => rw [hb] at e; exact hdec _ hv'.lambdaDecreaseOnRestore.1 hv'.lambdaDecreaseOnRestore.2 e
        exact ⟨this.1, this.2, fun hh => by cases hh⟩
      | maxIterations =>
        rw [hr] at hs
        simp only at hs
        have := hraise (hs.2 _ hnext)
        exact ⟨this.1, this.2.1, fun _ => this.2.2⟩
      | positiveDerivative =>
        rw [hr] at hs
        simp only at hs
        have := hraise (hs.2 _ hnext)
        exact ⟨this.1, this.2.1, fun _ => this.2.2⟩
      | firstOrderSatisfied =>
        rw [hr] at hs
        simp only at hs
        rw [hnext] at hs
        exact absurd hs.2 (by simp)
      | failureNonFiniteCost =>
        rw [hr] at hs
        simp only at hs
        rw [hs.2 _ hnext, hs.1]
        exact ⟨h1, h2, h3⟩
      | failureInvalidAlpha =>
        rw [hr] at hs
        simp only at hs
        rw [hs.2 _ hnext, hs.1]
        exact ⟨h1, h2, h3⟩
  refine ⟨?_, ?_⟩
  · intro it hit
    obtain ⟨k, hk⟩ := List.mem_iff_getElem?.mp hit
    exact ⟨(hinv k it hk).1, (hinv k it hk).2.1⟩
  · intro k it it' hit hit'
    have hnext : out.iterations[k + 1]?.map (·.lambda) = some it'.lambda := by rw [hit']; rfl
    have hs := hstep k it hit
    simp only at hs
    obtain ⟨h1, h2, h3⟩ := hinv k it hit
    constructor
    · intro hr hl
      rw [hr] at hs
      simp only at hs
      rw [hs.2 _ hnext, real_cmax]
      refine max_le ?_ h1
      have hd : ∀ dec : ℝ, dec < 1 → it.lambda * dec ≤ it.lambda := fun dec h => by nlinarith
      cases stateBefore out.iterations k with
      | nominal => exact hd _ hv'.lambdaDecreaseOnSuccess.2
      | attemptingRestoreLM => exact hd _ hv'.lambdaDecreaseOnRestore.2
    · intro hr
      have e : it'.lambda = raisedLambda prm (stateBefore out.iterations k) it.lambda := by
        rcases hr with hr | hr <;> rw [hr] at hs <;> exact (hs.2 _ hnext).1
      rw [e]
      unfold raisedLambda
      cases hb : stateBefore out.iterations k with
      | nominal =>
        simp only [real_cmax, real_lit]
        push_cast
        refine ⟨?_, fun _ => le_trans (by linarith) (le_max_right _ _), fun _ => le_max_left _ _⟩
        rcases le_total 0 it.lambda with hl | hl
        · exact le_trans (by linarith) (le_max_right _ _)
        · exact le_trans hl (le_trans hv'.lambdaFailureInit (le_max_left _ _))
      | attemptingRestoreLM =>
        simp only [real_lit]
        push_cast
        have := h3 hb
        exact ⟨by linarith, fun _ => by linarith, fun hh => by cases hh⟩

/-- **C44**. The logged penalties are positive, non-decreasing, at least `equality_penalty_initial`, constant without
equality constraints; and with equality constraints the penalty dominates what the iteration's own QP solution asks
for: the largest multiplier (interior-point path), or the ratio of model increase and constraint violation
(null-space path). -/
theorem C44_penalty (env : Env n D ℝ) (prm : NLSParams ℝ) (x0 : Fin n → ℝ) (o o' : env.Obj)
    (out : NLSOutputs ℝ) (calls : List (NLSIteration ℝ)) (h : solve env prm x0 o = .ok (o', out, calls)) :
    (∀ it ∈ out.iterations, 0 < it.penalty ∧ prm.equalityPenaltyInitial ≤ it.penalty ∧
      (env.p.eqs = [] → it.penalty = prm.equalityPenaltyInitial)) ∧
    (∀ (i j : Nat) it it', i ≤ j → out.iterations[i]? = some it → out.iterations[j]? = some it' →
      it.penalty ≤ it'.penalty) ∧
    (∀ (k : Nat) it b, out.iterations[k]? = some it → env.p.eqs ≠ [] → After env prm x0 o (k + 1) b →
      (∀ q L, it.qpOutputs = .interiorPoint q → q.lagrange = some L → L.lInfinity ≤ it.penalty) ∧
      (it.qpOutputs = .nullSpace .success →
        (∑ i, b.qp.c i * b.dx i) + 1 / 2 * max 0 (∑ i, ∑ j, b.dx i * b.qp.G (max i j) (min i j) * b.dx j)
          ≤ it.penalty * ((1 - prm.equalityPenaltyRho) * max (∑ k, |b.qp.b k|) (1 / 2 ^ 52)))) := by
  have hupd := C44_penalty_update env prm x0 o o' out calls h
  obtain ⟨hex, _, _⟩ := C38_after env prm x0 o o' out calls h
  obtain ⟨S, T, W, hv⟩ := solve_view h
  have hv' := hv.prmOk
  have hinv : ∀ (k : Nat) it, out.iterations[k]? = some it → 0 < it.penalty ∧ prm.equalityPenaltyInitial ≤ it.penalty ∧
      (env.p.eqs = [] → it.penalty = prm.equalityPenaltyInitial) ∧
      (∀ j, k = j + 1 → ∀ itp, out.iterations[j]? = some itp → itp.penalty ≤ it.penalty) := by
    intro k
    induction k with
    | zero =>
      intro it hit
      obtain ⟨b, hb, _⟩ := hex 1 (by have := lt_of_getElem? hit; omega)
      obtain ⟨e, hpos⟩ := hupd 0 it hit b hb
      simp only [if_true] at e
      refine ⟨hpos, ?_, ?_, fun j hj => by omega⟩
      · rw [e]
        split_ifs with hc
        · have := hv'.equalityPenaltyInitial
          have := hv'.equalityPenaltyScaleFactor
          nlinarith [hc.2]
        · exact le_rfl
      · intro he; rw [e, if_neg (by simp [he])]
    | succ k ih =>
      intro it hit
      have hk := lt_of_getElem? hit
      obtain ⟨itp, hitp⟩ : ∃ itp, out.iterations[k]? = some itp := ⟨_, List.getElem?_eq_getElem (by omega)⟩
      obtain ⟨i1, i2, i3, _⟩ := ih itp hitp
      obtain ⟨b, hb, _⟩ := hex (k + 2) (by omega)
      obtain ⟨e, hpos⟩ := hupd (k + 1) it hit b hb
      simp only [Nat.add_sub_cancel, hitp, Option.map_some, Option.getD_some, Nat.succ_ne_zero, if_false] at e
      have hle : itp.penalty ≤ it.penalty := by
        rw [e]
        split_ifs with hc
        · have := hv'.equalityPenaltyScaleFactor
          nlinarith [hc.2]
        · exact le_rfl
      refine ⟨hpos, le_trans i2 hle, ?_, ?_⟩
      · intro he; rw [e, if_neg (by simp [he])]; exact i3 he
      · intro j hj itp' hitp'
        have : j = k := by omega
        subst this
        rw [hitp] at hitp'; cases hitp'
        exact hle
  refine ⟨?_, ?_, ?_⟩
  · intro it hit
    obtain ⟨k, hk⟩ := List.mem_iff_getElem?.mp hit
    obtain ⟨a, b, c, _⟩ := hinv k it hk
    exact ⟨a, b, c⟩
  · intro i j
    induction j with
    | zero =>
      intro it it' hij hit hit'
      have : i = 0 := by omega
      subst this
      rw [hit] at hit'; cases hit'; exact le_rfl
    | succ j ih =>
      intro it it' hij hit hit'
      have hj := lt_of_getElem? hit'
      obtain ⟨itp, hitp⟩ : ∃ itp, out.iterations[j]? = some itp := ⟨_, List.getElem?_eq_getElem (by omega)⟩
      rcases Nat.lt_or_ge i (j + 1) with hlt | hge
      · exact le_trans (ih it itp (by omega) hit hitp) ((hinv (j + 1) it' hit').2.2.2 j rfl itp hitp)
      · have : i = j + 1 := by omega
        subst this
        rw [hit] at hit'; cases hit'; exact le_rfl
  · intro k it b hit he hb
    obtain ⟨e, hpos⟩ := hupd k it hit b hb
    have hdom : selectPenalty b.qp b.dx (multipliers it.qpOutputs) prm.equalityPenaltyRho ≤ it.penalty := by
      rw [e]
      have hs := hv'.equalityPenaltyScaleFactor
      have hi := hv'.equalityPenaltyInitial
      have hprev : 0 ≤ (if k = 0 then prm.equalityPenaltyInitial
          else ((out.iterations[k - 1]?).map (·.penalty)).getD prm.equalityPenaltyInitial) := by
        split_ifs with hk0
        · exact hi
        · cases hg : out.iterations[k - 1]? with
          | none => exact hi
          | some itp => exact (hinv _ itp hg).1.le
      by_cases hc : (if k = 0 then prm.equalityPenaltyInitial
          else ((out.iterations[k - 1]?).map (·.penalty)).getD prm.equalityPenaltyInitial)
          < selectPenalty b.qp b.dx (multipliers it.qpOutputs) prm.equalityPenaltyRho
      · rw [if_pos ⟨he, hc⟩]
        nlinarith
      · rw [if_neg fun hh => hc hh.2]
        exact not_lt.mp hc
    constructor
    · intro q L hq hL
      rw [hq] at hdom
      simp only [multipliers, hL, selectPenalty] at hdom
      exact hdom
    · intro hq
      rw [hq] at hdom
      simp only [multipliers, selectPenalty, real_cmax, real_lpNorm1, epsilon, real_lit, Residual.half] at hdom
      have hrho := hv'.equalityPenaltyRho
      have hden : 0 < (1 - prm.equalityPenaltyRho) * max (∑ k, |b.qp.b k|) (((1 / 2 ^ 52 : ℚ)) : ℝ) := by
        refine mul_pos (by linarith) (lt_of_lt_of_le ?_ (le_max_right _ _))
        push_cast; norm_num
      rw [div_le_iff₀ hden] at hdom
      have hquad : dot b.dx (matVec (symLower b.qp.G) b.dx) = ∑ i, ∑ j, b.dx i * b.qp.G (max i j) (min i j) * b.dx j := by
        rw [real_dot]
        refine Finset.sum_congr rfl fun i _ => ?_
        rw [real_matVec, Finset.mul_sum]
        refine Finset.sum_congr rfl fun j _ => ?_
        have : symLower b.qp.G i j = b.qp.G (max i j) (min i j) := by
          unfold symLower
          split_ifs with hij
          · rw [max_eq_left hij, min_eq_right hij]
          · rw [max_eq_right (not_le.mp hij).le, min_eq_left (not_le.mp hij).le]
        rw [this]; ring
      rw [hquad, real_dot] at hdom
      push_cast at hdom
      exact hdom

end MiniOpt.Props
