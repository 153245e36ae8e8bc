import Verif.Props.UserCalls
import Verif.Lemmas.DemoReal
import Verif.Spec.LogSpec

/-!
# C87: the log of a solve is legal whatever the user code does

Residuals, retraction and callback are arbitrary programs on a state of the world: they may answer differently every
time, with anything.
-/

set_option autoImplicit false

namespace MiniOpt.Props

open MiniOpt.Spec MiniOpt.NLS

section any

variable {α : Type} [Scalar α] {n D : Nat} {W : Type}

/-- The setting of a problem. -/
def settingOf (env : Env n D α) : Setting where
  equalities := env.p.eqs ≠ []
  inequalities := env.p.ineq ≠ []
  callback := env.callback ≠ none

/-- The step sizes follow the strategy. -/
def Chained (prm : NLSParams α) (pre : Errors α) (d : DirectionalDerivatives α) (pen : α)
    (steps : List (LineSearchStep α)) : Prop :=
  ∀ (j : Nat) (hj : j < steps.length),
    nextAlpha prm.lineSearchStrategy prm.armijoSearchTau j pre d pen (alphaBefore steps j) (steps.take j)
      = .ok (some steps[j].alpha)

/-- `y` is an answer to the question where `alpha * dx` leads from `x`. -/
def MovedW (u : World W n D α) (env : Env n D α) (x : Fin n → α) (dx : Fin D → α) (a : α) (y : Fin n → α) : Prop :=
  match env.retraction with
  | some _ => ∃ w, (u.retraction w x dx a).2 = some y
  | none => ∃ h : n = D, y = fun i => x i + dx (i.cast h) * a

omit [Scalar α] in
theorem snd_of_eq {β γ : Type} {p : β × γ} {a : β} {b : γ} (h : p = (a, b)) : p.2 = b := by rw [h]

theorem retractW_moved {u : World W n D α} {env : Env n D α} {x y : Fin n → α} {dx : Fin D → α} {a : α} {w w' : W}
    (h : retractW u env x dx a w = (w', .ok y)) : MovedW u env x dx a y := by
  unfold retractW at h
  unfold MovedW
  cases hR : env.retraction with
  | some R =>
    rw [hR] at h
    simp only at h ⊢
    cases hu : u.retraction w x dx a with
    | mk w1 r =>
      rw [hu] at h
      cases r with
      | none => cases h
      | some y' => cases h; exact ⟨w, by rw [hu]⟩
  | none =>
    rw [hR] at h
    simp only at h ⊢
    split_ifs at h with hn
    · cases h; exact ⟨hn, rfl⟩
    · cases h

theorem Chained.snoc {prm : NLSParams α} {pre : Errors α}
    {d : DirectionalDerivatives α} {pen : α} {steps : List (LineSearchStep α)}
    (h : Chained prm pre d pen steps) {a : α} {es : Errors α}
    (hn : nextAlpha prm.lineSearchStrategy prm.armijoSearchTau steps.length pre d pen
      (alphaBefore steps steps.length) steps = .ok (some a)) :
    Chained prm pre d pen (steps ++ [⟨a, es⟩]) := by
  intro j hj
  rw [List.length_append, List.length_singleton] at hj
  rw [alphaBefore_append _ _ _ (by omega), List.take_append_of_le_length (by omega)]
  rcases Nat.lt_or_ge j steps.length with hlt | hge
  · rw [List.getElem_append_left hlt]
    exact h j hlt
  · have : j = steps.length := by omega
    subst this
    rw [List.take_length, hn]
    simp

theorem lsLoopW_spec (u : World W n D α) (env : Env n D α) (prm : NLSParams α) (x : Fin n → α) (dx : Fin D → α)
    (pre : Errors α) (d : DirectionalDerivatives α) (pen : α) (total : Nat) :
    ∀ (fuel : Nat) (alpha : α) (steps : List (LineSearchStep α)) (cand : Fin n → α) (w w' : W)
      (res : StepResult) (steps' : List (LineSearchStep α)) (cand' : Fin n → α),
    fuel + steps.length = total → alpha = alphaBefore steps steps.length →
    Chained prm pre d pen steps → (∀ st ∈ steps, Rejected prm pre d pen st) →
    (∀ st, steps.getLast? = some st → MovedW u env x dx st.alpha cand) →
    lsLoopW u env prm x dx pre d pen fuel steps.length alpha steps cand w = (w', .ok (res, steps', cand')) →
    Chained prm pre d pen steps' ∧ Outcome env prm x dx pre d pen total res steps' ∧
      (∀ st, steps'.getLast? = some st → MovedW u env x dx st.alpha cand') := by
  intro fuel
  induction fuel with
  | zero =>
    intro alpha steps cand w w' res steps' cand' ht _ htr hrej hlast h
    simp only [lsLoopW] at h
    cases h
    exact ⟨htr, .maxIterations _ (by omega) hrej, hlast⟩
  | succ fuel ih =>
    intro alpha steps cand w w' res steps' cand' ht hal htr hrej hlast h
    simp only [lsLoopW] at h
    split at h
    · cases h
    · rename_i hn
      cases h
      rw [hal] at hn
      exact ⟨htr, .invalidAlpha _ (by omega) hrej hn, hlast⟩
    · rename_i a hn
      rw [hal] at hn
      split at h
      · cases h
      · rename_i w1 c hr
        split at h
        · cases h
        · rename_i w2 es he
          have htr' := htr.snoc (es := es) hn
          have hl' : ∀ st, (steps ++ [(⟨a, es⟩ : LineSearchStep α)]).getLast? = some st →
              MovedW u env x dx st.alpha c := by
            intro st hst
            rw [List.getLast?_append_of_ne_nil _ (by simp)] at hst
            simp at hst
            subst hst
            exact retractW_moved hr
          split_ifs at h with h1 h2 h3 h4
          · cases h
            exact ⟨htr', .nonFinite _ _ (by omega) hrej h1, hl'⟩
          · cases h
            exact ⟨htr', .firstOrder _ _ (by omega) hrej h1 h2, hl'⟩
          · cases h
            exact ⟨htr', .positive _ _ (by omega) hrej h1 h2 h3, hl'⟩
          · cases h
            exact ⟨htr', .success _ _ (by omega) hrej h1 h2 h3 h4, hl'⟩
          · have hlen : (steps ++ [(⟨a, es⟩ : LineSearchStep α)]).length = steps.length + 1 := by simp
            rw [← hlen] at h
            exact ih a (steps ++ [⟨a, es⟩]) c w2 w' res steps' cand' (by omega)
              (alphaBefore_last steps ⟨a, es⟩).symm htr'
              (by
                intro st hst
                rcases List.mem_append.mp hst with hst | hst
                · exact hrej st hst
                · rw [List.mem_singleton.mp hst]
                  exact ⟨h1, h2, h3, h4⟩) hl' h

/-- A finished line search is a legal one. -/
theorem searchOk_of {env : Env n D α} {prm : NLSParams α} {x : Fin n → α} {dx : Fin D → α} {it : NLSIteration α}
    (hmax : 0 ≤ prm.maxLineSearchIterations)
    (hc : Chained prm it.errorsInitial it.directionalDerivatives it.penalty it.lineSearchSteps)
    (ho : Outcome env prm x dx it.errorsInitial it.directionalDerivatives it.penalty
      (prm.maxLineSearchIterations + 1).toNat it.stepResult it.lineSearchSteps) : SearchOk prm it := by
  have hf := ho.facts
  have hrej : ∀ st, Rejected prm it.errorsInitial it.directionalDerivatives it.penalty st → Refused prm it st :=
    fun st h => ⟨h.valid, h.notFirstOrder, h.notPositive, h.notArmijo⟩
  constructor
  case count =>
    refine ⟨?_, by have := hf.len; omega⟩
    by_contra hn
    have h0 : it.lineSearchSteps.length = 0 := by omega
    have hnil : it.lineSearchSteps = [] := List.length_eq_zero_iff.mp h0
    cases hr : it.stepResult with
    | success => obtain ⟨st, hst, _⟩ := hf.success hr; simp [hnil] at hst
    | firstOrderSatisfied => obtain ⟨st, hst, _⟩ := hf.firstOrder hr; simp [hnil] at hst
    | positiveDerivative => obtain ⟨st, hst, _⟩ := hf.positive hr; simp [hnil] at hst
    | failureNonFiniteCost => obtain ⟨st, hst, _⟩ := hf.nonFinite hr; simp [hnil] at hst
    | maxIterations => have := (hf.maxIter hr).1; omega
    | failureInvalidAlpha =>
      have h1 := (hf.invalidAlpha hr).2.2
      rw [h0, nextAlpha_zero] at h1
      cases h1
  case first =>
    intro st hst
    have hj := lt_of_getElem? hst
    have hc := hc 0 hj
    rw [nextAlpha_zero] at hc
    have he : it.lineSearchSteps[0] = st := by
      rw [List.getElem?_eq_getElem hj] at hst; exact Option.some.inj hst
    rw [← he]
    simp only [alphaBefore, if_true, Except.ok.injEq, Option.some.injEq] at hc
    exact hc.symm
  case next =>
    intro j st st' hst hst'
    have hj := lt_of_getElem? hst'
    have hc := hc (j + 1) hj
    have he : it.lineSearchSteps[j + 1] = st' := by
      rw [List.getElem?_eq_getElem hj] at hst'; exact Option.some.inj hst'
    have hb : alphaBefore it.lineSearchSteps (j + 1) = st.alpha := by
      simp [alphaBefore, hst]
    rw [hb, he] at hc
    unfold nextAlpha at hc
    cases hs : prm.lineSearchStrategy with
    | armijoBacktrack =>
      rw [hs] at hc
      simp only [Nat.zero_lt_succ, if_true, Except.ok.injEq, Option.some.injEq] at hc
      exact hc.symm
    | polynomialApproximation =>
      rw [hs] at hc
      simp only [Nat.zero_lt_succ, if_true] at hc
      split at hc
      · cases hc
      · cases hc
      · rename_i a ha
        split_ifs at hc with hb
        · cases hc
        · have e : a = st'.alpha := by
            simp only [Except.ok.injEq, Option.some.injEq] at hc; exact hc
          rw [e] at hb
          push Not at hb
          exact ⟨hb.1, hb.2.1, hb.2.2⟩
  case refused =>
    intro j st hj hst
    have he : it.lineSearchSteps[j]'(by omega) = st := by
      rw [List.getElem?_eq_getElem (by omega)] at hst; exact Option.some.inj hst
    exact he ▸ hrej _ (hf.early j hj)
  case outcome =>
    intro last hl
    have hmem := List.mem_of_getLast? hl
    cases hr : it.stepResult with
    | success =>
      obtain ⟨st, hst, h1, h2, h3, h4⟩ := hf.success hr
      rw [hl] at hst; cases hst
      exact ⟨h1, h2, h3, h4⟩
    | firstOrderSatisfied =>
      obtain ⟨st, hst, h1, h2⟩ := hf.firstOrder hr
      rw [hl] at hst; cases hst
      exact ⟨h1, h2⟩
    | positiveDerivative =>
      obtain ⟨st, hst, h1, h2, h3⟩ := hf.positive hr
      rw [hl] at hst; cases hst
      exact ⟨h1, h2, h3⟩
    | failureNonFiniteCost =>
      obtain ⟨st, hst, h1⟩ := hf.nonFinite hr
      rw [hl] at hst; cases hst
      exact h1
    | maxIterations =>
      obtain ⟨h1, h2⟩ := hf.maxIter hr
      exact ⟨hrej _ (h2 _ hmem), by omega⟩
    | failureInvalidAlpha =>
      obtain ⟨h1, h2, h3⟩ := hf.invalidAlpha hr
      refine ⟨hrej _ (h2 _ hmem), ?_, by omega⟩
      cases hs : prm.lineSearchStrategy with
      | polynomialApproximation => rfl
      | armijoBacktrack =>
        rw [hs] at h3
        unfold nextAlpha at h3
        simp only at h3
        split_ifs at h3 <;> cases h3

/-- What the solver carries over, as seen in the log. -/
def controlOf {env : Env n D α} (s : Loop env) : Control α := ⟨s.lambda, s.penalty, s.obj.state⟩

/-- Whether the null-space solver is in use. -/
def NullSpaceUsed {env : Env n D α} (o : env.Obj) : Prop :=
  (∃ s, o.solver = .ns s) ↔ (settingOf env).equalities ∧ ¬ (settingOf env).inequalities

theorem nextState_after (st : OptimizerState) (r : StepResult) : nextState st r = stateAfter st r := by
  cases r <;> rfl

theorem nextLambda_after (prm : NLSParams α) (c : Control α) (r : StepResult) :
    nextLambda prm c.state r c.lambda = lambdaAfter prm c r := by
  obtain ⟨l, p, st⟩ := c
  cases r <;> cases st <;> rfl

theorem exitOf_stops (prm : NLSParams α) (it : NLSIteration α) (lambda : α)
    (hs : it.stepResult = .success → it.lineSearchSteps ≠ []) (e : NLSTermination) :
    exitOf prm it.stepResult it.errorsInitial it.penalty lambda it.lineSearchSteps.getLast? = some e ↔
      Stops prm it lambda e := by
  cases hr : it.stepResult with
  | success =>
    obtain ⟨st, hl⟩ : ∃ st, it.lineSearchSteps.getLast? = some st := by
      cases hg : it.lineSearchSteps.getLast? with
      | none => exact absurd (List.getLast?_eq_none_iff.mp hg) (hs hr)
      | some st => exact ⟨st, rfl⟩
    simp only [exitOf, hl]
    by_cases h1 : st.errors.lInfinity < prm.absoluteExitTol
    · simp only [if_pos h1]
      cases e <;> simp [Stops, hr, hl, h1]
    · simp only [if_neg h1]
      by_cases h2 : it.errorsInitial.total it.penalty * (1 - prm.relativeExitTol) < st.errors.total it.penalty
      · simp only [if_pos h2]
        cases e <;> simp [Stops, hr, hl, h1, h2]
      · simp only [if_neg h2]
        cases e <;> simp [Stops, hr, hl, h1, h2]
  | firstOrderSatisfied => cases e <;> simp [exitOf, Stops, hr]
  | maxIterations =>
    simp only [exitOf]
    by_cases h1 : prm.maxLambda < lambda
    · simp only [if_pos h1]; cases e <;> simp [Stops, hr, h1]
    · simp only [if_neg h1]; cases e <;> simp [Stops, hr, h1]
  | positiveDerivative =>
    simp only [exitOf]
    by_cases h1 : prm.maxLambda < lambda
    · simp only [if_pos h1]; cases e <;> simp [Stops, hr, h1]
    · simp only [if_neg h1]; cases e <;> simp [Stops, hr, h1]
  | failureNonFiniteCost => cases e <;> simp [exitOf, Stops, hr]
  | failureInvalidAlpha => cases e <;> simp [exitOf, Stops, hr]

theorem selectStepSizeW_ok {u : World W n D α} {env : Env n D α} {prm : NLSParams α} {pre : Errors α}
    {d : DirectionalDerivatives α} {pen : α} {o o2 : env.Obj} {res : StepResult} {w w' : W}
    (h : selectStepSizeW u env prm pre d pen o w = (w', .ok (o2, res))) :
    0 < pen ∧ ¬ pre.containsInvalid ∧
      lsLoopW u env prm o.vars o.dx pre d pen (prm.maxLineSearchIterations + 1).toNat 0 1 [] o.cand w
        = (w', .ok (res, o2.steps, o2.cand)) ∧ o2 = { o with steps := o2.steps, cand := o2.cand } := by
  unfold selectStepSizeW at h
  by_cases h1 : 0 < pen
  · by_cases h2 : pre.containsInvalid
    · simp only [h1, h2, not_true, if_true, if_false] at h
      cases h
    · simp only [h1, h2, not_true, if_false] at h
      split at h
      · cases h
      · rename_i r s c hl
        cases h
        exact ⟨h1, h2, hl, rfl⟩
  · simp only [h1, not_false_eq_true, if_true] at h
    cases h

theorem stepDirection_kind {env : Env n D α} {prm : NLSParams α} {ob o1 : env.Obj} {out : QPResult α}
    (h : stepDirection env prm ob = .ok (o1, out)) :
    ((∃ s, o1.solver = .ns s) ↔ ∃ s, ob.solver = .ns s) ∧
    ((∃ s, ob.solver = .ns s) ↔ ∃ t, out = .nullSpace t) := by
  rcases stepDirection_cases h with ⟨_, s, s', q, h1, h2, _, h4, _⟩ | ⟨s, s', t, h1, h2, _, h4, _⟩
  · rw [h1, h2, h4]; simp
  · rw [h1, h2, h4]; simp

/-- One pass of the loop: nothing is logged when the subproblem is indefinite; otherwise a legal iteration is. -/
theorem bodyW_legal {u : World W n D α} {env : Env n D α} {prm : NLSParams α} (hls : 0 ≤ prm.maxLineSearchIterations)
    {k : Nat} {s s' : Loop env} {t : Option NLSTermination} {w w' : W} (hns : NullSpaceUsed s.obj)
    (h : bodyW u env prm k s w = (w', .ok (s', t))) :
    NullSpaceUsed s'.obj ∧
    ((t = some .qpIndefinite ∧ (settingOf env).equalities ∧ ¬ (settingOf env).inequalities ∧ s'.log = s.log ∧
      s'.calls = s.calls ∧ s'.obj.vars = s.obj.vars) ∨
    ∃ it, s'.log = s.log ++ [it] ∧ s'.calls = (if env.callback = none then s.calls else s.calls ++ [it]) ∧
      IterationOk prm (settingOf env) k (controlOf s) it (controlOf s') ∧
      ((∃ e, t = some e ∧ Stops prm it s'.lambda e) ∨
        ((∀ e, ¬ Stops prm it s'.lambda e) ∧ (t = none ∨ t = some .userCallback ∧ env.callback ≠ none))) ∧
      (env.callback ≠ none → ∃ w1 b, (u.callback w1 it).2 = some b ∧ (t = none → b = true) ∧
        (t = some .userCallback → b = false)) ∧
      (it.stepResult ≠ .success → s'.obj.vars = s.obj.vars) ∧
      (it.stepResult = .success → ∃ last dx, it.lineSearchSteps.getLast? = some last ∧
        MovedW u env s.obj.vars dx last.alpha s'.obj.vars)) := by
  unfold bodyW at h
  split at h
  · cases h
  · rename_i w1 qp pre hlin
    split at h
    · cases h
    · rename_i o1 out hdir
      obtain ⟨hk1, hk2⟩ := stepDirection_kind hdir
      have hf := stepDirection_frame hdir
      have v1 : o1.vars = s.obj.vars := by have e := congrArg Obj.vars hf; exact e
      have hns1 : NullSpaceUsed o1 := hk1.trans hns
      by_cases hind : wasIndefinite out = true
      · rw [if_pos hind] at h
        cases h
        refine ⟨hns1, .inl ⟨rfl, ?_, ?_, rfl, rfl, v1⟩⟩
        · exact (hns.mp (hk2.mpr (by cases out with | nullSpace t => exact ⟨t, rfl⟩ | interiorPoint q => cases hind))).1
        · exact (hns.mp (hk2.mpr (by cases out with | nullSpace t => exact ⟨t, rfl⟩ | interiorPoint q => cases hind))).2
      · rw [if_neg hind] at h
        dsimp only at h
        split at h
        · cases h
        · rename_i w2 o2 res hsel
          split at h
          · cases h
          · rename_i o3 lambda' exit hupd
            obtain ⟨hp, hv, hl, ho2⟩ := selectStepSizeW_ok hsel
            obtain ⟨ho3, hlam, hex, hne⟩ := updateLambda_ok hupd
            have st1 : o1.state = s.obj.state := by have e := congrArg Obj.state hf; exact e
            have v2 : o2.vars = s.obj.vars := (show _ = _ by have e := congrArg Obj.vars ho2; exact e).trans v1
            have st2 : o2.state = s.obj.state := (show _ = _ by have e := congrArg Obj.state ho2; exact e).trans st1
            have so2 : o2.solver = o1.solver := by have e := congrArg Obj.solver ho2; exact e
            have so3 : o3.solver = o1.solver := (show _ = _ by have e := congrArg Obj.solver ho3; exact e).trans so2
            have e3 : o3.steps = o2.steps := by have e := congrArg Obj.steps ho3; exact e
            have vv3 : o3.vars = if res = .success then o2.cand else o2.vars := by
              have e := congrArg Obj.vars ho3; exact e
            have ss3 : o3.state = nextState o2.state res := by have e := congrArg Obj.state ho3; exact e
            obtain ⟨hch, hout, hlast⟩ := lsLoopW_spec u env prm o1.vars o1.dx pre (costDerivative o1.qp o1.dx)
              (raisePenalty env.p prm o1.qp o1.dx out s.penalty) (prm.maxLineSearchIterations + 1).toNat
              (prm.maxLineSearchIterations + 1).toNat 1 [] o1.cand w1 w2 res o2.steps o2.cand (by simp)
              (by simp [alphaBefore]) (fun j hj => by simp at hj) (by simp) (by simp) hl
            have hns3 : NullSpaceUsed ({ o3 with steps := [] } : env.Obj) := by
              show (∃ x, o3.solver = .ns x) ↔ _
              rw [so3]; exact hns1
            revert h
            generalize hinfo : (NLSIteration.mk (k : Int) o3.state s.lambda pre out
              (if prm.logQPEigenvalues then some (eigenStats (env.eigenvalues o3.qp.G)) else none)
              (costDerivative o1.qp o1.dx) (raisePenalty env.p prm o1.qp o1.dx out s.penalty) res o3.steps
              : NLSIteration α) = it
            intro h
            have hres : it.stepResult = res := by rw [← hinfo]
            have hsteps : it.lineSearchSteps = o2.steps := by rw [← hinfo]; exact e3
            have hpen : it.penalty = raisePenalty env.p prm o1.qp o1.dx out s.penalty := by rw [← hinfo]
            have hpre : it.errorsInitial = pre := by rw [← hinfo]
            have hder : it.directionalDerivatives = costDerivative o1.qp o1.dx := by rw [← hinfo]
            have hqp : it.qpOutputs = out := by rw [← hinfo]
            have hlamc : lambda' = lambdaAfter prm (controlOf s) it.stepResult := by
              rw [hres, ← nextLambda_after, hlam, st2]; rfl
            have hstops : ∀ e, exit = some e ↔ Stops prm it lambda' e := by
              intro e
              rw [← exitOf_stops prm it lambda' (by rw [hres, hsteps]; exact hne) e, hres, hpre, hpen, hsteps, hex]
            have hiter : IterationOk prm (settingOf env) k (controlOf s) it
                ⟨lambda', raisePenalty env.p prm o1.qp o1.dx out s.penalty, o3.state⟩ := by
              constructor
              case number => rw [← hinfo]
              case lambda => rw [← hinfo]; rfl
              case penalty => exact hpen
              case positive => rw [hpen]; exact hp
              case raised =>
                refine ⟨selectPenalty o1.qp o1.dx (multipliers out) prm.equalityPenaltyRho, ?_, ?_⟩
                · intro q L hq hL
                  rw [← hqp, hq]
                  simp only [multipliers, hL, selectPenalty]
                · rw [hpen]
                  unfold raisePenalty
                  by_cases he : env.p.eqs ≠ []
                  · rw [if_pos he]
                    dsimp only
                    by_cases hlt : s.penalty < selectPenalty o1.qp o1.dx (multipliers out) prm.equalityPenaltyRho
                    · rw [if_pos hlt]; exact .inl ⟨he, hlt, rfl⟩
                    · rw [if_neg hlt]; exact .inr ⟨fun hh => hlt hh.2, rfl⟩
                  · rw [if_neg he]; exact .inr ⟨fun hh => he hh.1, rfl⟩
              case nullSpace =>
                intro hh
                obtain ⟨t', ht'⟩ := hk2.mp (hns.mpr hh)
                rw [hqp, ht']
                cases t' with
                | success => rfl
                | notPositiveDefinite => rw [ht'] at hind; exact absurd rfl hind
              case interiorPoint =>
                intro hh
                rw [hqp]
                cases ho : out with
                | interiorPoint q => exact ⟨q, rfl⟩
                | nullSpace t' => exact absurd (hns.mp (hk2.mpr ⟨t', ho⟩)) hh
              case eigenvalues =>
                rw [← hinfo]
                cases prm.logQPEigenvalues <;> rfl
              case finite => rw [hpre]; exact hv
              case search =>
                refine searchOk_of (env := env) (x := o1.vars) (dx := o1.dx) hls ?_ ?_
                · rw [hpre, hder, hpen, hsteps]; exact hch
                · rw [hpre, hder, hpen, hsteps, hres]; exact hout
              case state =>
                refine ⟨by rw [← hinfo], ?_⟩
                show o3.state = _
                rw [ss3, nextState_after, st2, hres]; rfl
              case damping => exact hlamc
            have hvars : (it.stepResult ≠ .success → o3.vars = s.obj.vars) ∧
                (it.stepResult = .success → ∃ last dx, it.lineSearchSteps.getLast? = some last ∧
                  MovedW u env s.obj.vars dx last.alpha o3.vars) := by
              rw [hres, hsteps]
              constructor
              · intro hn; rw [vv3, if_neg hn, v2]
              · intro hs
                obtain ⟨st, hst⟩ : ∃ st, o2.steps.getLast? = some st := by
                  cases hg : o2.steps.getLast? with
                  | none => exact absurd (List.getLast?_eq_none_iff.mp hg) (hne hs)
                  | some st => exact ⟨st, rfl⟩
                refine ⟨st, o1.dx, hst, ?_⟩
                rw [vv3, if_pos hs, ← v1]
                exact hlast st hst
            unfold finishW at h
            cases hcb : env.callback with
            | none =>
              rw [hcb] at h
              dsimp only at h
              cases h
              refine ⟨hns3, .inr ⟨it, rfl, by simp, hiter, ?_, by simp, hvars.1, hvars.2⟩⟩
              cases hx : t with
              | some e => exact .inl ⟨e, rfl, (hstops e).mp hx⟩
              | none => exact .inr ⟨fun e he => (by rw [(hstops e).mpr he] at hx; cases hx), .inl rfl⟩
            | some cb =>
              rw [hcb] at h
              dsimp only at h
              cases hcall : u.callback w2 it with
              | mk w3 ans =>
                rw [hcall] at h
                cases ans with
                | none => cases h
                | some b =>
                  dsimp only at h
                  cases h
                  refine ⟨hns3, .inr ⟨it, rfl, by simp, hiter, ?_, ?_, hvars.1, hvars.2⟩⟩
                  · cases hx : exit with
                    | some e => exact .inl ⟨e, rfl, (hstops e).mp hx⟩
                    | none =>
                      refine .inr ⟨fun e he => (by rw [(hstops e).mpr he] at hx; cases hx), ?_⟩
                      cases b
                      · exact .inr ⟨rfl, by simp⟩
                      · exact .inl rfl
                  · intro _
                    refine ⟨w2, b, by rw [hcall], ?_, ?_⟩
                    · intro ht
                      cases hx : exit with
                      | some e => rw [hx] at ht; cases ht
                      | none => rw [hx] at ht; cases b <;> first | rfl | cases ht
                    · intro ht
                      cases hx : exit with
                      | some e =>
                        rw [hx] at ht
                        cases ht
                        exact absurd ((hstops _).mp hx) (by simp [Stops])
                      | none => rw [hx] at ht; cases b <;> first | rfl | cases ht

/-- The loop. -/
theorem loopW_legal {u : World W n D α} {env : Env n D α} {prm : NLSParams α} (hls : 0 ≤ prm.maxLineSearchIterations)
    (hmax : 0 ≤ prm.maxIterations) :
    ∀ (fuel k : Nat) (s s' : Loop env) (t : NLSTermination) (w w' : W), fuel + k = prm.maxIterations.toNat →
    NullSpaceUsed s.obj → loopW u env prm fuel k s w = (w', .ok (s', t)) →
    ∃ log, s'.log = s.log ++ log ∧ s'.calls = (if env.callback = none then s.calls else s.calls ++ log) ∧
      LegalLog prm (settingOf env) k (controlOf s) log t ∧
      (env.callback ≠ none → Verdicts (fun it b => ∃ w1, (u.callback w1 it).2 = some b) log t) ∧
      Path (fun x a y => ∃ dx, MovedW u env x dx a y) s.obj.vars log s'.obj.vars := by
  intro fuel
  induction fuel with
  | zero =>
    intro k s s' t w w' hk _ h
    simp only [loopW] at h
    cases h
    exact ⟨[], by simp, by simp, .limit k _ (by omega), fun _ => .none _, .done _⟩
  | succ fuel ih =>
    intro k s s' t w w' hk hns h
    simp only [loopW] at h
    split at h
    · cases h
    · rename_i w1 s1 t1 hb
      cases h
      obtain ⟨-, hcase⟩ := bodyW_legal hls hns hb
      rcases hcase with ⟨ht, he, hi, hlog, hcalls, hv⟩ | ⟨it, hlog, hcalls, hok, hstop, hcb, hv1, hv2⟩
      · cases ht
        refine ⟨[], by simp [hlog], by simp [hcalls], .indefinite k _ (by omega) he hi, fun _ => .none _, ?_⟩
        rw [hv]; exact .done _
      · refine ⟨[it], hlog, hcalls, ?_, ?_, ?_⟩
        · rcases hstop with ⟨e, he, hst⟩ | ⟨hn, he | ⟨he, hc⟩⟩
          · cases he; exact .stop k _ _ it _ (by omega) hok hst
          · cases he
          · cases he; exact .user k _ _ it (by omega) hok hn hc
        · intro hc
          obtain ⟨w2, b, hans, _, hb2⟩ := hcb hc
          refine .last it _ b ⟨w2, hans⟩ (fun e => hb2 (by rw [e])) ?_
          rintro (e | e)
          · subst e
            rcases hstop with ⟨e, he, hst⟩ | ⟨hn, he | ⟨he, hc⟩⟩
            · cases he; cases hst
            · cases he
            · cases he
          · subst e
            rcases hstop with ⟨e, he, hst⟩ | ⟨hn, he | ⟨he, hc⟩⟩
            · cases he; cases hst
            · cases he
            · cases he
        · by_cases hs : it.stepResult = .success
          · obtain ⟨last, dx, hl, hm⟩ := hv2 hs
            exact .move _ _ _ it [] last hs hl ⟨dx, hm⟩ (.done _)
          · rw [hv1 hs]; exact .stay _ _ it [] hs (.done _)
    · rename_i w1 s1 hb
      obtain ⟨hns1, hcase⟩ := bodyW_legal hls hns hb
      rcases hcase with ⟨ht, _⟩ | ⟨it, hlog, hcalls, hok, hstop, hcb, hv1, hv2⟩
      · cases ht
      · obtain ⟨log, hl, hc, hleg, hver, hpath⟩ := ih (k + 1) s1 s' t w1 w' (by omega) hns1 h
        refine ⟨it :: log, by rw [hl, hlog]; simp, ?_, ?_, ?_, ?_⟩
        · rw [hc, hcalls]; split_ifs <;> simp
        · rcases hstop with ⟨e, he, _⟩ | ⟨hn, _⟩
          · cases he
          · exact .next k _ _ it log t (by omega) hok hn hleg
        · intro hcne
          obtain ⟨w2, b, hans, hb1, _⟩ := hcb hcne
          have hv := hver hcne
          rw [hb1 rfl] at hans
          cases log with
          | nil =>
            refine .last it t true ⟨w2, hans⟩ ?_ (fun _ => rfl)
            intro e
            subst e
            cases hleg
          | cons it' rest => exact .more it it' rest t ⟨w2, hans⟩ hv
        · by_cases hs : it.stepResult = .success
          · obtain ⟨last, dx, hl, hm⟩ := hv2 hs
            exact .move _ _ _ it log last hs hl ⟨dx, hm⟩ hpath
          · rw [← hv1 hs]; exact .stay _ _ it log hs hpath

/-- **C87.** Whatever residuals, retraction and callback answer — each may answer anything, differently every time — if
`Solve` returns, its log and termination state are legal, the callback was given the iterations of the log and no others,
all its answers but the last were "go on", and the variables moved only at successful iterations, by the answer to the
question where the last trial step leads. -/
theorem C87_log (u : World W n D α) (env : Env n D α) (prm : NLSParams α) (x0 : Fin n → α) (o o' : env.Obj) (w w' : W)
    (out : NLSOutputs α) (calls : List (NLSIteration α)) (h : solveW u env prm x0 o w = (w', .ok (o', out, calls))) :
    LegalLog prm (settingOf env) 0 ⟨prm.lambdaInitial, prm.equalityPenaltyInitial, .nominal⟩ out.iterations
      out.termination ∧
    calls = (if env.callback = none then [] else out.iterations) ∧
    (env.callback ≠ none → Verdicts (fun it b => ∃ w1, (u.callback w1 it).2 = some b) out.iterations out.termination) ∧
    Path (fun x a y => ∃ dx, MovedW u env x dx a y) x0 out.iterations o'.vars := by
  unfold solveW at h
  cases hc : NLS.checkParams prm with
  | error e => rw [hc] at h; cases h
  | ok _ =>
    rw [hc] at h
    dsimp only at h
    split at h
    · cases h
    · rename_i w1 s t hl
      cases h
      have hprm := (checkParams_iff prm).mp (by rw [hc])
      have hns : NullSpaceUsed (start env prm x0 o).obj := by
        show (∃ x, chooseSolver env o.solver = .ns x) ↔ (env.p.eqs ≠ [] ∧ ¬ env.p.ineq ≠ [])
        unfold chooseSolver
        by_cases hh : env.p.ineq = [] ∧ env.p.eqs ≠ []
        · rw [if_pos hh]
          refine ⟨fun _ => ⟨hh.2, fun hn => hn hh.1⟩, fun _ => ?_⟩
          cases o.solver with
          | ns st => exact ⟨st, rfl⟩
          | ip st => exact ⟨_, rfl⟩
        · rw [if_neg hh]
          refine ⟨?_, fun h2 => absurd ⟨not_not.mp h2.2, h2.1⟩ hh⟩
          rintro ⟨x, hx⟩
          cases hs : o.solver with
          | ip st => rw [hs] at hx; cases hx
          | ns st => rw [hs] at hx; cases hx
      obtain ⟨log, h1, h2, h3, h4, h5⟩ := loopW_legal hprm.maxLineSearchIterations hprm.maxIterations
        prm.maxIterations.toNat 0 (start env prm x0 o) s t w w' (by simp) hns hl
      have hlog : s.log = log := by rw [h1]; rfl
      refine ⟨?_, ?_, ?_, ?_⟩
      · show LegalLog _ _ _ _ s.log t
        rw [hlog]; exact h3
      · show s.calls = if _ then _ else s.log
        rw [h2, hlog]; rfl
      · show _ → Verdicts _ s.log t
        rw [hlog]; exact h4
      · show Path _ _ s.log _
        rw [hlog]; exact h5

/-- Numbers of iterations and trial steps in a legal log. -/
theorem legal_counts {prm : NLSParams α} {set : Setting} {k : Nat} {c : Control α} {log : List (NLSIteration α)}
    {t : NLSTermination} (h : LegalLog prm set k c log t) :
    ((k + log.length : Nat) : Int) ≤ prm.maxIterations ∧
    (t = .maxIterations → ((k + log.length : Nat) : Int) = prm.maxIterations) ∧
    (∀ (j : Nat) it, log[j]? = some it → it.iteration = ((k + j : Nat) : Int)) ∧
    (((log.map fun it => it.lineSearchSteps.length).sum : Nat) : Int)
      ≤ (log.length : Int) * (prm.maxLineSearchIterations + 1) := by
  induction h with
  | limit k c hk => simp only [List.length_nil, List.map_nil, List.sum_nil]; refine ⟨by omega, fun _ => by omega, by simp, by simp⟩
  | indefinite k c hk _ _ => refine ⟨by simp only [List.length_nil]; omega, by simp, by simp, by simp⟩
  | stop k c c' it t hk hit hst =>
    refine ⟨by simp only [List.length_singleton]; omega, ?_, ?_, ?_⟩
    · rintro rfl; cases hst
    · intro j it' hj
      cases j with
      | zero => cases hj; rw [hit.number]; simp
      | succ j => simp at hj
    · have := hit.search.count.2
      simp only [List.map_cons, List.map_nil, List.sum_cons, List.sum_nil, List.length_singleton]; omega
  | user k c c' it hk hit _ _ =>
    refine ⟨by simp only [List.length_singleton]; omega, by simp, ?_, ?_⟩
    · intro j it' hj
      cases j with
      | zero => cases hj; rw [hit.number]; simp
      | succ j => simp at hj
    · have := hit.search.count.2
      simp only [List.map_cons, List.map_nil, List.sum_cons, List.sum_nil, List.length_singleton]; omega
  | next k c c' it rest t hk hit _ _ ih =>
    obtain ⟨h1, h2, h3, h4⟩ := ih
    refine ⟨by simp only [List.length_cons]; omega, ?_, ?_, ?_⟩
    · intro ht; have := h2 ht; simp only [List.length_cons]; omega
    · intro j it' hj
      cases j with
      | zero => cases hj; rw [hit.number]; simp
      | succ j => rw [h3 j it' (by simpa using hj)]; congr 1; omega
    · have := hit.search.count.2
      simp only [List.map_cons, List.sum_cons, List.length_cons]
      rw [Nat.cast_add, Nat.cast_add, add_mul]
      have e : ((1 : Nat) : Int) * (prm.maxLineSearchIterations + 1) = prm.maxLineSearchIterations + 1 := by simp
      rw [e]
      omega

/-- **C87** (counts). Whatever the user code does: at most `max_iterations` iterations are logged, and exactly that many if
that is the termination state; they are numbered; and `max_line_search_iterations + 1` bounds the trial steps of each. -/
theorem C87_counts (u : World W n D α) (env : Env n D α) (prm : NLSParams α) (x0 : Fin n → α) (o o' : env.Obj)
    (w w' : W) (out : NLSOutputs α) (calls : List (NLSIteration α))
    (h : solveW u env prm x0 o w = (w', .ok (o', out, calls))) :
    (out.iterations.length : Int) ≤ prm.maxIterations ∧
    (out.termination = .maxIterations → (out.iterations.length : Int) = prm.maxIterations) ∧
    (∀ (j : Nat) it, out.iterations[j]? = some it → it.iteration = (j : Int)) ∧
    (((out.iterations.map fun it => it.lineSearchSteps.length).sum : Nat) : Int)
      ≤ (out.iterations.length : Int) * (prm.maxLineSearchIterations + 1) := by
  have := legal_counts (C87_log u env prm x0 o o' w w' out calls h).1
  simpa only [Nat.zero_add] using this

/-! ### Exceptions -/

/-- No user code throws. -/
structure Calm (u : World W n D α) : Prop where
  value : ∀ w role i r q, (u.value w role i r q).2 ≠ none
  valueJ : ∀ w role i r q, (u.valueJ w role i r q).2 ≠ none
  retraction : ∀ w x dx a, (u.retraction w x dx a).2 ≠ none
  callback : ∀ w it, (u.callback w it).2 ≠ none

omit [Scalar α] in
theorem gather_fault (r : Residual α) (x : Fin n → α) (e : Fault) (h : r.gather x = .error e) : e ≠ .user := by
  by_cases hi : IdxIn r n
  · rw [gather_ok r x hi] at h; cases h
  · obtain ⟨t, ht⟩ := gather_error r x hi
    rw [ht] at h
    cases h
    exact fun h => by cases h

omit [Scalar α] in
theorem errorVectorW_fault {u : World W n D α} (hu : Calm u) {role : Role} {i : Nat} {r : Residual α} {x : Fin n → α}
    {w w' : W} {e : Fault} (h : errorVectorW u role i r x w = (w', .error e)) : e ≠ .user := by
  unfold errorVectorW at h
  split at h
  · rename_i hg; cases h; exact gather_fault _ _ _ hg
  · split at h
    · rename_i hv; exact absurd (snd_of_eq hv) (hu.value _ _ _ _ _)
    · cases h

theorem updateHessianW_fault {u : World W n D α} (hu : Calm u) {role : Role} {i : Nat} {r : Residual α}
    {x : Fin n → α} {H : Fin D → Fin D → α} {b : Fin D → α} {w w' : W} {e}
    (h : updateHessianW u role i r x H b w = (w', .error e)) : e.1 ≠ .user := by
  unfold updateHessianW at h
  split at h
  · rename_i hg; cases h; exact gather_fault _ _ _ hg
  · split at h
    · rename_i hv; exact absurd (snd_of_eq hv) (hu.valueJ _ _ _ _ _)
    · split at h
      · rename_i hr; cases h; exact hessRows_fault _ _ _ _ _ _ _ hr
      · cases h

omit [Scalar α] in
theorem updateJacobianW_fault {u : World W n D α} (hu : Calm u) {role : Role} {i : Nat} {r : Residual α}
    {x : Fin n → α} {A : Fin r.dim → Fin D → α} {b : Fin r.dim → α} {w w' : W} {e}
    (h : updateJacobianW u role i r x A b w = (w', .error e)) : e.1 ≠ .user := by
  unfold updateJacobianW at h
  split at h
  · rename_i hg; cases h; exact gather_fault _ _ _ hg
  · split at h
    · rename_i hv; exact absurd (snd_of_eq hv) (hu.valueJ _ _ _ _ _)
    · split at h
      · rename_i hr; cases h; exact scatterCols_fault _ _ _ _ _ hr
      · cases h

theorem linCostsW_fault {u : World W n D α} (hu : Calm u) {x : Fin n → α} : ∀ (l : List (Residual α)) (i : Nat)
    (G : Fin D → Fin D → α) (c : Fin D → α) (f : α) (w w' : W) (e),
    linCostsW u x i l G c f w = (w', .error e) → e.1 ≠ .user := by
  intro l
  induction l with
  | nil => intro i G c f w w' e h; cases h
  | cons r rs ih =>
    intro i G c f w w' e h
    simp only [linCostsW] at h
    split at h
    · rename_i hr; cases h; exact updateHessianW_fault hu hr
    · exact ih _ _ _ _ _ _ _ h

theorem linEqsW_fault {K : Nat} {u : World W n D α} (hu : Calm u) {x : Fin n → α} : ∀ (l : List (Residual α))
    (i row : Nat) (A : Fin K → Fin D → α) (b : Fin K → α) (f : α) (w w' : W) (e),
    linEqsW u x i l row A b f w = (w', .error e) → e.1 ≠ .user := by
  intro l
  induction l with
  | nil => intro i row A b f w w' e h; cases h
  | cons r rs ih =>
    intro i row A b f w w' e h
    simp only [linEqsW] at h
    split_ifs at h
    · split at h
      · rename_i hr
        cases h
        exact updateJacobianW_fault hu hr
      · exact ih _ _ _ _ _ _ _ _ h
    · cases h; exact fun h => by cases h

theorem linearizeW_fault {u : World W n D α} (hu : Calm u) {p : Problem D α} {x : Fin n → α} {lambda : α}
    {qp : QPData D p.M p.K α} {w w' : W} {e} (h : linearizeW u p x lambda qp w = (w', .error e)) : e.1 ≠ .user := by
  unfold linearizeW at h
  split at h
  · rename_i hr; cases h; exact linCostsW_fault hu _ _ _ _ _ _ _ _ hr
  · dsimp only at h
    split at h
    · rename_i hr; cases h; exact linEqsW_fault hu _ _ _ _ _ _ _ _ _ hr
    · split at h
      · rename_i hr; cases h; exact shiftLoop_fault _ _ _ hr
      · cases h

theorem retractW_fault {u : World W n D α} (hu : Calm u) {env : Env n D α} {x : Fin n → α} {dx : Fin D → α} {a : α}
    {w w' : W} {e : Fault} (h : retractW u env x dx a w = (w', .error e)) : e ≠ .user := by
  unfold retractW at h
  split at h
  · split at h
    · rename_i hv; exact absurd (snd_of_eq hv) (hu.retraction _ _ _ _)
    · cases h
  · split_ifs at h
    · cases h
    · cases h; exact fun h => by cases h

theorem evalCostsW_fault {u : World W n D α} (hu : Calm u) {x : Fin n → α} : ∀ (l : List (Residual α)) (i : Nat) (f : α)
    (w w' : W) (e : Fault), evalCostsW u x i l f w = (w', .error e) → e ≠ .user := by
  intro l
  induction l with
  | nil => intro i f w w' e h; cases h
  | cons r rs ih =>
    intro i f w w' e h
    simp only [evalCostsW] at h
    split at h
    · rename_i hr; cases h; exact errorVectorW_fault hu hr
    · exact ih _ _ _ _ _ h

theorem evalEqsW_fault {u : World W n D α} (hu : Calm u) {x : Fin n → α} : ∀ (l : List (Residual α)) (i : Nat) (f : α)
    (w w' : W) (e : Fault), evalEqsW u x i l f w = (w', .error e) → e ≠ .user := by
  intro l
  induction l with
  | nil => intro i f w w' e h; cases h
  | cons r rs ih =>
    intro i f w w' e h
    simp only [evalEqsW] at h
    split at h
    · rename_i hr; cases h; exact errorVectorW_fault hu hr
    · exact ih _ _ _ _ _ h

theorem evalErrorsW_fault {u : World W n D α} (hu : Calm u) {p : Problem D α} {x : Fin n → α} {w w' : W} {e : Fault}
    (h : evalErrorsW u p x w = (w', .error e)) : e ≠ .user := by
  unfold evalErrorsW at h
  split at h
  · rename_i hr; cases h; exact evalCostsW_fault hu _ _ _ _ _ _ hr
  · split at h
    · rename_i hr; cases h; exact evalEqsW_fault hu _ _ _ _ _ _ hr
    · cases h

theorem lsLoopW_fault {u : World W n D α} (hu : Calm u) {env : Env n D α} {prm : NLSParams α} {x : Fin n → α}
    {dx : Fin D → α} {pre : Errors α} {d : DirectionalDerivatives α} {pen : α} :
    ∀ (fuel iter : Nat) (alpha : α) (steps : List (LineSearchStep α)) (cand : Fin n → α) (w w' : W) (e),
      lsLoopW u env prm x dx pre d pen fuel iter alpha steps cand w = (w', .error e) → e.1 ≠ .user := by
  intro fuel
  induction fuel with
  | zero => intro iter alpha steps cand w w' e h; cases h
  | succ fuel ih =>
    intro iter alpha steps cand w w' e h
    simp only [lsLoopW] at h
    split at h
    · rename_i hn; cases h; exact nextAlpha_fault hn
    · cases h
    · split at h
      · rename_i hr; cases h; exact retractW_fault hu hr
      · split at h
        · rename_i hr; cases h; exact evalErrorsW_fault hu hr
        · split_ifs at h
          · cases h
          · cases h
          · cases h
          · cases h
          · exact ih _ _ _ _ _ _ _ h

theorem bodyW_fault {u : World W n D α} (hu : Calm u) {env : Env n D α} {prm : NLSParams α} {k : Nat} {s : Loop env}
    {w w' : W} {e} (h : bodyW u env prm k s w = (w', .error e)) : e.1 ≠ .user := by
  unfold bodyW at h
  split at h
  · rename_i hr; cases h; exact linearizeW_fault hu hr
  · split at h
    · rename_i hr; cases h; exact stepDirection_fault hr
    · rename_i out hdir
      by_cases hind : wasIndefinite out = true
      · rw [if_pos hind] at h; cases h
      · rw [if_neg hind] at h
        dsimp only at h
        split at h
        · rename_i hr
          cases h
          unfold selectStepSizeW at hr
          split_ifs at hr
          · cases hr; exact fun h => by cases h
          · split at hr
            · rename_i hl; cases hr; exact lsLoopW_fault hu _ _ _ _ _ _ _ _ hl
            · cases hr
          · cases hr; exact fun h => by cases h
        · split at h
          · rename_i hr; cases h; exact updateLambda_fault hr
          · split at h
            · rename_i hr
              unfold finishW at hr
              split at hr
              · cases hr
              · split at hr
                · rename_i hc; exact absurd (snd_of_eq hc) (hu.callback _ _)
                · cases hr
            · cases h

theorem loopW_fault {u : World W n D α} (hu : Calm u) {env : Env n D α} {prm : NLSParams α} : ∀ (fuel k : Nat)
    (s : Loop env) (w w' : W) (e), loopW u env prm fuel k s w = (w', .error e) → e.1 ≠ .user := by
  intro fuel
  induction fuel with
  | zero => intro k s w w' e h; cases h
  | succ fuel ih =>
    intro k s w w' e h
    simp only [loopW] at h
    split at h
    · rename_i hb; cases h; exact bodyW_fault hu hb
    · cases h
    · exact ih _ _ _ _ _ h

/-- **C87** (exceptions). `Solve` leaves with an exception of the user code only if some user code threw one. -/
theorem C87_user_exceptions (u : World W n D α) (hu : Calm u) (env : Env n D α) (prm : NLSParams α) (x0 : Fin n → α)
    (o o' : env.Obj) (w w' : W) (e : Fault) (h : solveW u env prm x0 o w = (w', .error (e, o'))) : e ≠ .user := by
  unfold solveW at h
  split at h
  · rename_i hc; cases h; exact nlsCheckParams_fault _ _ hc
  · split at h
    · rename_i hl; cases h; exact loopW_fault hu _ _ _ _ _ _ hl
    · cases h

/-- **C87** (plain functions). The log of `solve`, where the user code are functions, is legal. -/
theorem C87_solve (env : Env n D α) (prm : NLSParams α) (x0 : Fin n → α) (o o' : env.Obj) (out : NLSOutputs α)
    (calls : List (NLSIteration α)) (h : solve env prm x0 o = .ok (o', out, calls)) :
    LegalLog prm (settingOf env) 0 ⟨prm.lambdaInitial, prm.equalityPenaltyInitial, .nominal⟩ out.iterations
      out.termination := by
  obtain ⟨_, _, hw⟩ := C86_record env prm x0 o o' out calls h
  exact (C87_log _ env prm x0 o o' _ _ out calls hw).1

end any

section real

variable {n D : Nat} {W : Type}

/-- The step sizes of a legal search are positive and at most 1. -/
theorem search_alphas {prm : NLSParams ℝ} (hp : NLSParamsValid prm) {it : NLSIteration ℝ} (hs : SearchOk prm it) :
    ∀ (j : Nat) st, it.lineSearchSteps[j]? = some st → 0 < st.alpha ∧ st.alpha ≤ 1 := by
  intro j
  induction j with
  | zero => intro st hst; rw [hs.first st hst]; exact ⟨one_pos, le_refl _⟩
  | succ j ih =>
    intro st' hst'
    have hj := lt_of_getElem? hst'
    obtain ⟨st, hst⟩ : ∃ st, it.lineSearchSteps[j]? = some st := ⟨_, List.getElem?_eq_getElem (by omega)⟩
    obtain ⟨h1, h2⟩ := ih st hst
    have hn := hs.next j st st' hst hst'
    cases hst : prm.lineSearchStrategy with
    | armijoBacktrack =>
      rw [hst] at hn
      simp only at hn
      have ht := hp.armijoSearchTau
      rw [hn]
      exact ⟨mul_pos h1 ht.1, by nlinarith [ht.1, ht.2]⟩
    | polynomialApproximation =>
      rw [hst] at hn
      simp only at hn
      exact ⟨not_le.mp hn.2.1, le_trans (not_le.mp hn.2.2).le h2⟩

/-- `lambda` stays within the limits. -/
theorem damping_limits {prm : NLSParams ℝ} (hp : NLSParamsValid prm) {c : Control ℝ} {r : StepResult} {l : ℝ}
    (hc : prm.minLambda ≤ c.lambda ∧ c.lambda ≤ prm.maxLambda ∧ (c.state = .attemptingRestoreLM → 0 ≤ c.lambda))
    (hl : l = lambdaAfter prm c r) (hmx : r = .maxIterations ∨ r = .positiveDerivative → l ≤ prm.maxLambda) :
    prm.minLambda ≤ l ∧ l ≤ prm.maxLambda ∧ (stateAfter c.state r = .attemptingRestoreLM → 0 ≤ l) := by
  obtain ⟨h1, h2, h3⟩ := hc
  have hsucc : ∀ f : ℝ, 0 ≤ f → f < 1 → max (c.lambda * f) prm.minLambda ≤ prm.maxLambda := by
    intro f hf0 hf1
    refine max_le ?_ hp.minLambda
    rcases le_total 0 c.lambda with h | h
    · nlinarith
    · exact le_trans (mul_nonpos_of_nonpos_of_nonneg h hf0) hp.maxLambda
  have hraise : ∀ (hl : l = match c.state with
      | .nominal => max prm.lambdaFailureInit (c.lambda * 10)
      | .attemptingRestoreLM => c.lambda * 10), prm.minLambda ≤ l ∧ 0 ≤ l := by
    intro hl
    cases hst : c.state with
    | nominal =>
      rw [hst] at hl
      simp only at hl
      rw [hl]
      refine ⟨?_, le_trans hp.lambdaFailureInit (le_max_left _ _)⟩
      rcases le_total 0 c.lambda with h | h
      · exact le_trans h1 (le_trans (by linarith) (le_max_right _ _))
      · exact le_trans (le_trans h1 h) (le_trans hp.lambdaFailureInit (le_max_left _ _))
    | attemptingRestoreLM =>
      rw [hst] at hl
      simp only at hl
      have := h3 hst
      rw [hl]
      exact ⟨by linarith, by linarith⟩
  cases r with
  | success =>
    simp only [lambdaAfter, real_cmax] at hl
    refine ⟨by rw [hl]; exact le_max_right _ _, ?_, fun h => by simp [stateAfter] at h⟩
    rw [hl]
    cases c.state
    · exact hsucc _ hp.lambdaDecreaseOnSuccess.1 hp.lambdaDecreaseOnSuccess.2
    · exact hsucc _ hp.lambdaDecreaseOnRestore.1 hp.lambdaDecreaseOnRestore.2
  | maxIterations =>
    have := hraise (by rw [hl]; cases hs : c.state <;> simp [lambdaAfter, hs])
    exact ⟨this.1, hmx (.inl rfl), fun _ => this.2⟩
  | positiveDerivative =>
    have := hraise (by rw [hl]; cases hs : c.state <;> simp [lambdaAfter, hs])
    exact ⟨this.1, hmx (.inr rfl), fun _ => this.2⟩
  | firstOrderSatisfied => simp only [lambdaAfter, stateAfter] at hl ⊢; rw [hl]; exact ⟨h1, h2, h3⟩
  | failureNonFiniteCost => simp only [lambdaAfter, stateAfter] at hl ⊢; rw [hl]; exact ⟨h1, h2, h3⟩
  | failureInvalidAlpha => simp only [lambdaAfter, stateAfter] at hl ⊢; rw [hl]; exact ⟨h1, h2, h3⟩

/-- What a legal log implies about real numbers. -/
theorem legal_real {prm : NLSParams ℝ} (hp : NLSParamsValid prm) {set : Setting} {k : Nat}
    {c : Control ℝ} {log : List (NLSIteration ℝ)} {t : NLSTermination} (h : LegalLog prm set k c log t)
    (hc : prm.minLambda ≤ c.lambda ∧ c.lambda ≤ prm.maxLambda ∧ (c.state = .attemptingRestoreLM → 0 ≤ c.lambda)) :
    (∀ it ∈ log, prm.minLambda ≤ it.lambda ∧ it.lambda ≤ prm.maxLambda ∧ c.penalty ≤ it.penalty ∧ 0 < it.penalty) ∧
    log.Pairwise (fun a b => a.penalty ≤ b.penalty) ∧
    (∀ it ∈ log, it.stepResult = .success → ∃ last, it.lineSearchSteps.getLast? = some last ∧
      last.errors.total it.penalty ≤ it.errorsInitial.total it.penalty) := by
  have hone : ∀ {k : Nat} {c c' : Control ℝ} {it : NLSIteration ℝ}, IterationOk prm set k c it c' →
      c.penalty ≤ it.penalty := by
    intro k c c' it hit
    obtain ⟨wanted, -, hcase⟩ := hit.raised
    rcases hcase with ⟨_, hlt, he⟩ | ⟨_, he⟩
    · rw [he]
      have hpos := hit.positive
      rw [he] at hpos
      have hs := hp.equalityPenaltyScaleFactor
      have hw : 0 < wanted := by
        by_contra hn
        have := mul_nonpos_of_nonpos_of_nonneg (not_lt.mp hn) (le_trans zero_le_one hs)
        linarith
      nlinarith
    · rw [he]
  have hmer : ∀ {k : Nat} {c c' : Control ℝ} {it : NLSIteration ℝ}, IterationOk prm set k c it c' →
      it.stepResult = .success → ∃ last, it.lineSearchSteps.getLast? = some last ∧
        last.errors.total it.penalty ≤ it.errorsInitial.total it.penalty := by
    intro k c c' it hit hs
    obtain ⟨last, hl⟩ : ∃ last, it.lineSearchSteps.getLast? = some last := by
      cases hg : it.lineSearchSteps.getLast? with
      | none => have := hit.search.count.1; rw [List.getLast?_eq_none_iff.mp hg] at this; simp at this
      | some st => exact ⟨st, rfl⟩
    have ho := hit.search.outcome last hl
    rw [hs] at ho
    obtain ⟨_, _, hup, hacc⟩ := ho
    refine ⟨last, hl, ?_⟩
    have hpos := (search_alphas hp hit.search (it.lineSearchSteps.length - 1) last
      (by rw [← List.getLast?_eq_getElem?]; exact hl)).1
    have hup' : it.directionalDerivatives.total it.penalty ≤ 0 := not_lt.mp hup
    unfold Accepts at hacc
    simp only [real_lit] at hacc
    push_cast at hacc
    have := mul_nonpos_of_nonpos_of_nonneg hup' hpos.le
    linarith
  induction h with
  | limit k c hk => simp
  | indefinite k c hk _ _ => simp
  | stop k c c' it t hk hit hst =>
    simp only [List.mem_singleton, forall_eq, List.pairwise_singleton, true_and]
    exact ⟨⟨by rw [hit.lambda]; exact hc.1, by rw [hit.lambda]; exact hc.2.1, hone hit, hit.positive⟩, hmer hit⟩
  | user k c c' it hk hit _ _ =>
    simp only [List.mem_singleton, forall_eq, List.pairwise_singleton, true_and]
    exact ⟨⟨by rw [hit.lambda]; exact hc.1, by rw [hit.lambda]; exact hc.2.1, hone hit, hit.positive⟩, hmer hit⟩
  | next k c c' it rest t hk hit hns _ ih =>
    have hc' := damping_limits hp hc hit.damping (fun hr => by
      by_contra hn
      exact hns .maxLambda ⟨hr, not_le.mp hn⟩)
    rw [← hit.state.2] at hc'
    obtain ⟨h1, h2, h3⟩ := ih hc'
    have hpen := hone hit
    refine ⟨?_, ?_, ?_⟩
    · intro it' hit'
      rcases List.mem_cons.mp hit' with rfl | hm
      · exact ⟨by rw [hit.lambda]; exact hc.1, by rw [hit.lambda]; exact hc.2.1, hpen, hit.positive⟩
      · obtain ⟨a1, a2, a3, a4⟩ := h1 it' hm
        exact ⟨a1, a2, le_trans hpen (hit.penalty ▸ a3), a4⟩
    · exact List.pairwise_cons.mpr ⟨fun it' hm => hit.penalty ▸ (h1 it' hm).2.2.1, h2⟩
    · intro it' hit' hs
      rcases List.mem_cons.mp hit' with rfl | hm
      · exact hmer hit hs
      · exact h3 it' hm hs

/-- **C87** (real numbers). Whatever the user code does: every `lambda` is within the limits, the penalties are positive
and never decrease, the step sizes are in `(0, 1]`, and at a success the merit is at most what it was. -/
theorem C87_real (u : World W n D ℝ) (env : Env n D ℝ) (prm : NLSParams ℝ) (x0 : Fin n → ℝ) (o o' : env.Obj)
    (w w' : W) (out : NLSOutputs ℝ) (calls : List (NLSIteration ℝ))
    (h : solveW u env prm x0 o w = (w', .ok (o', out, calls))) :
    (∀ it ∈ out.iterations, prm.minLambda ≤ it.lambda ∧ it.lambda ≤ prm.maxLambda ∧
      prm.equalityPenaltyInitial ≤ it.penalty ∧ 0 < it.penalty) ∧
    out.iterations.Pairwise (fun a b => a.penalty ≤ b.penalty) ∧
    (∀ it ∈ out.iterations, ∀ st ∈ it.lineSearchSteps, 0 < st.alpha ∧ st.alpha ≤ 1) ∧
    (∀ it ∈ out.iterations, it.stepResult = .success → ∃ last, it.lineSearchSteps.getLast? = some last ∧
      last.errors.total it.penalty ≤ it.errorsInitial.total it.penalty) := by
  have hp : NLSParamsValid prm := by
    unfold solveW at h
    cases hc : NLS.checkParams prm with
    | error e => rw [hc] at h; cases h
    | ok _ => exact (checkParams_iff prm).mp (by rw [hc])
  have hl := (C87_log u env prm x0 o o' w w' out calls h).1
  obtain ⟨h1, h2, h3⟩ := legal_real hp hl ⟨hp.lambdaInitial.1, hp.lambdaInitial.2, fun h => by cases h⟩
  refine ⟨h1, h2, ?_, h3⟩
  have hall : ∀ {k : Nat} {c : Control ℝ} {log : List (NLSIteration ℝ)} {t : NLSTermination},
      LegalLog prm (settingOf env) k c log t → ∀ it ∈ log, SearchOk prm it := by
    intro k c log t hlog
    induction hlog with
    | limit | indefinite => simp
    | stop k c c' it t hk hit => intro it' hm; rw [List.mem_singleton.mp hm]; exact hit.search
    | user k c c' it hk hit => intro it' hm; rw [List.mem_singleton.mp hm]; exact hit.search
    | next k c c' it rest t hk hit _ _ ih =>
      intro it' hm
      rcases List.mem_cons.mp hm with rfl | hm
      · exact hit.search
      · exact ih it' hm
  intro it hm st hst
  obtain ⟨j, hj, he⟩ := List.getElem_of_mem hst
  exact search_alphas hp (hall hl it hm) j st (by rw [List.getElem?_eq_getElem hj, he])

end real

/-! ## Examples -/

section Examples

open MiniOpt.DemoNLS

/-- User code that answers by the number of calls so far: the residual is first that number less 7, then twice the number;
its slope changes sign at every call; the callback stops when 12 calls have been made. -/
def moody : World Nat 1 1 Rt where
  value w _ _ _ _ := (w + 1, some fun _ => if w < 7 then ⟨w - 7⟩ else ⟨2 * w⟩)
  valueJ w _ _ _ _ := (w + 1, some (fun _ => ⟨w - 8⟩, fun _ _ => ⟨(-1) ^ w⟩))
  retraction w x _ _ := (w + 1, some x)
  callback w _ := (w + 1, some (decide (w < 12)))

/-- It never throws. -/
theorem moody_calm : Calm moody := by
  constructor <;> intros <;> simp [moody]

/-- A solve with it: two successes, then two failed line searches; the callback stops it. -/
theorem moody_run : ∃ o' out calls w', solveW moody (env1 wrongSign (some fun _ => true))
      { prm 10 with maxLineSearchIterations := 1 } (fun _ => ⟨5⟩) (obj1 wrongSign (some fun _ => true)) 0
        = (w', .ok (o', out, calls)) ∧ out.termination = .userCallback ∧
      out.iterations.map (·.stepResult) = [.success, .success, .maxIterations, .maxIterations] ∧
      out.iterations.map (fun it => it.lineSearchSteps.length) = [1, 1, 2, 2] := by
  have key : (match solveW moody (env1 wrongSign (some fun _ => true))
      { prm 10 with maxLineSearchIterations := 1 } (fun _ => ⟨5⟩) (obj1 wrongSign (some fun _ => true)) 0 with
    | (_, .ok (_, out, _)) => some (out.termination, out.iterations.map (·.stepResult),
        out.iterations.map (fun it => it.lineSearchSteps.length))
    | (_, .error _) => none)
      = some (.userCallback, [.success, .success, .maxIterations, .maxIterations], [1, 1, 2, 2]) := by decide +kernel
  split at key
  · rename_i w' o' out calls hr
    simp only [Option.some.injEq, Prod.mk.injEq] at key
    exact ⟨o', out, calls, w', hr, key.1, key.2.1, key.2.2⟩
  · cases key

/-- The log of that solve is legal. -/
example : ∃ out : NLSOutputs Rt, out.iterations.length = 4 ∧ LegalLog { prm 10 with maxLineSearchIterations := 1 }
    ⟨False, False, True⟩ 0 ⟨(prm 10).lambdaInitial, (prm 10).equalityPenaltyInitial, .nominal⟩ out.iterations
      out.termination := by
  obtain ⟨o', out, calls, w', h, _, hr, _⟩ := moody_run
  refine ⟨out, by simpa using congrArg List.length hr, ?_⟩
  have := (C87_log _ _ _ _ _ _ _ _ _ _ h).1
  have e : settingOf (env1 wrongSign (some fun _ => true)) = ⟨False, False, True⟩ := by
    simp [settingOf, env1]
  rwa [e] at this

/-- The hypothesis of `C87_real`: a solve of two unknowns with bounds from `(3, 0)`, with user code that writes down its
calls. -/
example : ∃ o' out calls w', solveW (recording DemoReal.boundedEnv) DemoReal.boundedEnv NLSParams.default ![3, 0]
    (DemoReal.mkObj _) [] = (w', .ok (o', out, calls)) ∧ out.iterations ≠ [] := by
  obtain ⟨o', out, calls, h, hne⟩ := DemoReal.bounded_run NLSParams.default DemoReal.nls_default_valid
    (by norm_num [NLSParams.default]) (by norm_num [NLSParams.default]) ![3, 0]
  obtain ⟨_, _, hw⟩ := C86_record _ _ _ _ _ _ _ h
  exact ⟨o', out, calls, _, hw, hne⟩

end Examples

end MiniOpt.Props
