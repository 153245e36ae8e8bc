import Verif.Lemmas.NLSView
import Verif.Props.QPReuse

/-!
# The nonlinear solver does not read leftovers (any arithmetic)
-/

set_option autoImplicit false

namespace MiniOpt.NLS

open MiniOpt.Spec MiniOpt.Props

variable {α : Type} [Scalar α] {n D : Nat}

/-- Two solver members of the same kind. -/
def SameKind {D M K : Nat} : Solver D M K α → Solver D M K α → Prop
  | .ip _, .ip _ => True
  | .ns _, .ns _ => True
  | _, _ => False

/-- Objects that agree on what matters at the head of the loop. -/
structure ObjSim {env : Env n D α} (o o' : env.Obj) : Prop where
  vars : o.vars = o'.vars
  state : o.state = o'.state
  kind : SameKind o.solver o'.solver

/-- Loop states that agree on what matters, apart from log and calls. -/
structure Core {env : Env n D α} (s s' : Loop env) : Prop where
  obj : ObjSim s.obj s'.obj
  lambda : s.lambda = s'.lambda
  penalty : s.penalty = s'.penalty

theorem linearize_sim (p : Problem D α) (x : Fin n → α) (lam : α) (qp qp' : QPData D p.M p.K α) :
    (∃ e a a', linearize p x lam qp = .error (e, a) ∧ linearize p x lam qp' = .error (e, a')) ∨
    (∃ r, linearize p x lam qp = .ok r ∧ linearize p x lam qp' = .ok r) := by
  unfold linearize
  split
  · exact .inl ⟨_, _, _, rfl, rfl⟩
  · simp only
    split
    · exact .inl ⟨_, _, _, rfl, rfl⟩
    · split
      · exact .inl ⟨_, _, _, rfl, rfl⟩
      · exact .inr ⟨_, rfl, rfl⟩

theorem qpParams_guess (p : Problem D α) (prm : NLSParams α) : (qpParams p prm).initialGuessMethod ≠ .userProvided := by
  unfold qpParams
  dsimp only
  split_ifs <;> simp

theorem stepDirection_sim {env : Env n D α} (prm : NLSParams α) {o o' : env.Obj} (h : ObjSim o o')
    (hq : o.qp = o'.qp) :
    (∃ e a a', stepDirection env prm o = .error (e, a) ∧ stepDirection env prm o' = .error (e, a')) ∨
    (∃ o1 o1' out, stepDirection env prm o = .ok (o1, out) ∧ stepDirection env prm o' = .ok (o1', out) ∧
      ObjSim o1 o1' ∧ o1.qp = o.qp ∧ o1'.qp = o.qp ∧ o1.dx = o1'.dx) := by
  have hk := h.kind
  unfold stepDirection
  rw [← hq]
  cases hs : o.solver with
  | ip st =>
    cases hs' : o'.solver with
    | ns st' => rw [hs, hs'] at hk; exact absurd hk (by simp [SameKind])
    | ip st' =>
      simp only
      split
      · exact .inl ⟨_, _, _, rfl, rfl⟩
      · by_cases hcon : ∀ i, 0 ≤ (o.qp.con i).var ∧ (o.qp.con i).var < (D : Int)
        · rw [dif_pos hcon, dif_pos hcon]
          have hl := C19_no_leak env.E (o.qp.typed hcon) (qpParams env.p prm) (IP.setupState st) (IP.setupState st')
            (.setup st) (.setup st') (fun hg => absurd hg (qpParams_guess env.p prm))
          cases h1 : IP.solve env.E (o.qp.typed hcon) (qpParams env.p prm) (IP.setupState st) with
          | error e =>
            cases h2 : IP.solve env.E (o.qp.typed hcon) (qpParams env.p prm) (IP.setupState st') with
            | error e' =>
              rw [h1, h2] at hl
              simp only [observe, Except.error.injEq] at hl
              obtain ⟨f, s1⟩ := e
              obtain ⟨f', s2⟩ := e'
              dsimp only at hl
              subst hl
              exact .inl ⟨_, _, _, rfl, rfl⟩
            | ok r' => rw [h1, h2] at hl; simp [observe] at hl
          | ok r =>
            cases h2 : IP.solve env.E (o.qp.typed hcon) (qpParams env.p prm) (IP.setupState st') with
            | error e' => rw [h1, h2] at hl; simp [observe] at hl
            | ok r' =>
              rw [h1, h2] at hl
              simp only [observe, Except.ok.injEq, Prod.mk.injEq] at hl
              obtain ⟨s1, q1⟩ := r
              obtain ⟨s2, q2⟩ := r'
              dsimp only at hl
              obtain ⟨hl1, hl2⟩ := hl
              subst hl2
              exact .inr ⟨_, _, _, rfl, rfl, ⟨h.vars, h.state, trivial⟩, rfl, rfl, congrArg Blocks.x hl1⟩
        · rw [dif_neg hcon, dif_neg hcon]
          exact .inl ⟨_, _, _, rfl, rfl⟩
  | ns st =>
    cases hs' : o'.solver with
    | ip st' => rw [hs, hs'] at hk; exact absurd hk (by simp [SameKind])
    | ns st' =>
      simp only
      unfold NS.solve
      by_cases h0 : 0 < env.p.K
      · rw [if_neg (not_not.mpr h0), if_neg (not_not.mpr h0)]
        simp only
        by_cases hK : env.p.K ≤ D
        · rw [dif_pos hK, dif_pos hK]
          split_ifs with hr
          · exact .inl ⟨_, _, _, rfl, rfl⟩
          · cases hl : env.NE.llt (symLower (NS.reducedG (⟨o.qp.G, o.qp.c, o.qp.A, o.qp.b, Fin.elim0⟩ :
                QP D 0 env.p.K α) hK (env.NE.qr o.qp.A))) with
            | none => exact .inr ⟨_, _, _, rfl, rfl, ⟨h.vars, h.state, trivial⟩, rfl, rfl, rfl⟩
            | some f => exact .inr ⟨_, _, _, rfl, rfl, ⟨h.vars, h.state, trivial⟩, rfl, rfl, rfl⟩
        · rw [dif_neg hK, dif_neg hK]
          exact .inl ⟨_, _, _, rfl, rfl⟩
      · rw [if_pos h0, if_pos h0]
        exact .inl ⟨_, _, _, rfl, rfl⟩

theorem lsLoop_sim (env : Env n D α) (prm : NLSParams α) (x : Fin n → α) (dx : Fin D → α) (pre : Errors α)
    (d : DirectionalDerivatives α) (pen : α) : ∀ (fuel iter : Nat) (a : α) (steps : List (LineSearchStep α))
    (c c' : Fin n → α),
    (∃ e b b', lsLoop env prm x dx pre d pen fuel iter a steps c = .error (e, b) ∧
      lsLoop env prm x dx pre d pen fuel iter a steps c' = .error (e, b')) ∨
    (∃ res st k k', lsLoop env prm x dx pre d pen fuel iter a steps c = .ok (res, st, k) ∧
      lsLoop env prm x dx pre d pen fuel iter a steps c' = .ok (res, st, k') ∧ (res = .success → k = k')) := by
  intro fuel
  induction fuel with
  | zero => intro iter a steps c c'; exact .inr ⟨_, _, _, _, rfl, rfl, by simp⟩
  | succ fuel ih =>
    intro iter a steps c c'
    simp only [lsLoop]
    split
    · exact .inl ⟨_, _, _, rfl, rfl⟩
    · exact .inr ⟨_, _, _, _, rfl, rfl, by simp⟩
    · split
      · exact .inl ⟨_, _, _, rfl, rfl⟩
      · split
        · exact .inl ⟨_, _, _, rfl, rfl⟩
        · split_ifs
          · exact .inr ⟨_, _, _, _, rfl, rfl, fun _ => rfl⟩
          · exact .inr ⟨_, _, _, _, rfl, rfl, fun _ => rfl⟩
          · exact .inr ⟨_, _, _, _, rfl, rfl, fun _ => rfl⟩
          · exact .inr ⟨_, _, _, _, rfl, rfl, fun _ => rfl⟩
          · exact ih _ _ _ _ _

theorem selectStepSize_sim {env : Env n D α} (prm : NLSParams α) (pre : Errors α) (d : DirectionalDerivatives α)
    (pen : α) {o o' : env.Obj} (h : ObjSim o o') (hdx : o.dx = o'.dx) (hq : o.qp = o'.qp) :
    (∃ e a a', selectStepSize env prm pre d pen o = .error (e, a) ∧
      selectStepSize env prm pre d pen o' = .error (e, a')) ∨
    (∃ o2 o2' res, selectStepSize env prm pre d pen o = .ok (o2, res) ∧
      selectStepSize env prm pre d pen o' = .ok (o2', res) ∧ ObjSim o2 o2' ∧ o2.steps = o2'.steps ∧
      o2.qp = o2'.qp ∧ (res = .success → o2.cand = o2'.cand)) := by
  unfold selectStepSize
  by_cases h1 : 0 < pen
  · rw [if_neg (not_not.mpr h1), if_neg (not_not.mpr h1)]
    by_cases h2 : pre.containsInvalid
    · rw [if_pos h2, if_pos h2]; exact .inl ⟨_, _, _, rfl, rfl⟩
    · rw [if_neg h2, if_neg h2, ← h.vars, ← hdx]
      rcases lsLoop_sim env prm o.vars o.dx pre d pen (prm.maxLineSearchIterations + 1).toNat 0 1 [] o.cand o'.cand with
        ⟨e, b, b', e1, e2⟩ | ⟨res, st, k, k', e1, e2, hk⟩
      · rw [e1, e2]; exact .inl ⟨_, _, _, rfl, rfl⟩
      · rw [e1, e2]
        exact .inr ⟨_, _, _, rfl, rfl, ⟨rfl, h.state, h.kind⟩, rfl, hq, hk⟩
  · rw [if_pos h1, if_pos h1]; exact .inl ⟨_, _, _, rfl, rfl⟩

theorem updateLambda_sim {env : Env n D α} (prm : NLSParams α) (res : StepResult) (pre : Errors α) (pen lam : α)
    {o o' : env.Obj} (h : ObjSim o o') (hst : o.steps = o'.steps) (hq : o.qp = o'.qp)
    (hc : res = .success → o.cand = o'.cand) :
    (∃ e a a', updateLambda env prm res pre pen lam o = .error (e, a) ∧
      updateLambda env prm res pre pen lam o' = .error (e, a')) ∨
    (∃ o3 o3' lam' ex, updateLambda env prm res pre pen lam o = .ok (o3, lam', ex) ∧
      updateLambda env prm res pre pen lam o' = .ok (o3', lam', ex) ∧ ObjSim o3 o3' ∧ o3.steps = o3'.steps ∧
      o3.qp = o3'.qp ∧ ex ≠ some .userCallback) := by
  unfold updateLambda
  cases res with
  | success =>
    simp only
    rw [← hst]
    cases hl : o.steps.getLast? with
    | none => exact .inl ⟨_, _, _, rfl, rfl⟩
    | some final =>
      simp only
      rw [← h.state]
      exact .inr ⟨_, _, _, _, rfl, rfl, ⟨hc rfl, rfl, h.kind⟩, rfl, hq, by split_ifs <;> simp⟩
  | firstOrderSatisfied => exact .inr ⟨_, _, _, _, rfl, rfl, h, hst, hq, by simp⟩
  | maxIterations =>
    simp only
    rw [← h.state]
    exact .inr ⟨_, _, _, _, rfl, rfl, ⟨h.vars, rfl, h.kind⟩, hst, hq, by split_ifs <;> simp⟩
  | positiveDerivative =>
    simp only
    rw [← h.state]
    exact .inr ⟨_, _, _, _, rfl, rfl, ⟨h.vars, rfl, h.kind⟩, hst, hq, by split_ifs <;> simp⟩
  | failureNonFiniteCost => exact .inr ⟨_, _, _, _, rfl, rfl, h, hst, hq, by simp⟩
  | failureInvalidAlpha => exact .inr ⟨_, _, _, _, rfl, rfl, h, hst, hq, by simp⟩

theorem stepDirection_error_vars {env : Env n D α} {prm : NLSParams α} {o : env.Obj} {e : Fault} {a : env.Obj}
    (h : stepDirection env prm o = .error (e, a)) : a.vars = o.vars := by
  unfold stepDirection at h
  simp only at h
  split at h
  · split at h
    · cases h; rfl
    · split_ifs at h
      · split at h
        · cases h; rfl
        · cases h
      · cases h; rfl
  · split at h
    · cases h; rfl
    all_goals cases h

theorem selectStepSize_error_vars {env : Env n D α} {prm : NLSParams α} {pre : Errors α} {d : DirectionalDerivatives α}
    {pen : α} {o : env.Obj} {e : Fault} {a : env.Obj}
    (h : selectStepSize env prm pre d pen o = .error (e, a)) : a.vars = o.vars := by
  unfold selectStepSize at h
  split_ifs at h
  · cases h; rfl
  · split at h
    · cases h; rfl
    · cases h
  · cases h; rfl

theorem updateLambda_error_vars {env : Env n D α} {prm : NLSParams α} {res : StepResult} {pre : Errors α} {pen lam : α}
    {o : env.Obj} {e : Fault} {a : env.Obj}
    (h : updateLambda env prm res pre pen lam o = .error (e, a)) : a.vars = o.vars := by
  unfold updateLambda at h
  split at h
  · split at h
    · cases h; rfl
    · cases h
  all_goals cases h

/-- One pass from two loop states that agree (apart from log, calls and numbering). -/
theorem body_sim {env : Env n D α} (prm : NLSParams α) {s s' : Loop env} (h : Core s s') (iter iter' : Nat) :
    (∃ e a a', body env prm iter s = .error (e, a) ∧ body env prm iter' s' = .error (e, a') ∧ a.vars = a'.vars) ∨
    (∃ a a', body env prm iter s = .ok ({ s with obj := a }, some .qpIndefinite) ∧
      body env prm iter' s' = .ok ({ s' with obj := a' }, some .qpIndefinite) ∧ ObjSim a a') ∨
    (∃ (a a' : env.Obj) (lam pen : α) (info : NLSIteration α) (ex : Option NLSTermination), ObjSim a a' ∧
      ex ≠ some .userCallback ∧
      (body env prm iter s = if callbackFails env { info with iteration := iter } s.calls then .error (.user, a)
        else .ok (⟨a, lam, pen, s.log ++ [{ info with iteration := iter }],
        (finish env.callback { info with iteration := iter } ex s.calls).1⟩,
        (finish env.callback { info with iteration := iter } ex s.calls).2)) ∧
      (body env prm iter' s' = if callbackFails env { info with iteration := iter' } s'.calls then .error (.user, a')
        else .ok (⟨a', lam, pen, s'.log ++ [{ info with iteration := iter' }],
        (finish env.callback { info with iteration := iter' } ex s'.calls).1⟩,
        (finish env.callback { info with iteration := iter' } ex s'.calls).2))) := by
  unfold body
  rw [← h.obj.vars, ← h.lambda]
  rcases linearize_sim env.p s.obj.vars s.lambda s.obj.qp s'.obj.qp with ⟨e, a, a', e1, e2⟩ | ⟨⟨qp, pre⟩, e1, e2⟩
  · rw [e1, e2]; exact .inl ⟨_, _, _, rfl, rfl, h.obj.vars⟩
  rw [e1, e2]
  simp only
  have hs1 : ObjSim (env := env) { s.obj with qp := qp } { s'.obj with qp := qp, vars := s.obj.vars } :=
    ⟨rfl, h.obj.state, h.obj.kind⟩
  have hobj' : ({ s'.obj with qp := qp } : env.Obj) = { s'.obj with qp := qp, vars := s.obj.vars } := by
    rw [h.obj.vars]
  rw [hobj']
  rcases stepDirection_sim prm hs1 rfl with ⟨e, a, a', e1, e2⟩ | ⟨o1, o1', out, e1, e2, hsim, hq1, hq1', hdx⟩
  · have v1 := stepDirection_error_vars e1
    have v2 := stepDirection_error_vars e2
    rw [e1, e2]; exact .inl ⟨_, _, _, rfl, rfl, v1.trans v2.symm⟩
  rw [e1, e2]
  simp only
  by_cases hind : wasIndefinite out = true
  · rw [if_pos hind, if_pos hind]
    exact .inr (.inl ⟨o1, o1', rfl, rfl, hsim⟩)
  · rw [if_neg hind, if_neg hind]
    have hqq : o1.qp = o1'.qp := hq1.trans hq1'.symm
    rw [← hqq, ← hdx, ← h.penalty]
    rcases selectStepSize_sim prm pre (costDerivative o1.qp o1.dx)
        (raisePenalty env.p prm o1.qp o1.dx out s.penalty) hsim hdx hqq with
      ⟨e, a, a', e1, e2⟩ | ⟨o2, o2', res, e1, e2, hsim2, hst2, hq2, hc2⟩
    · have v1 := selectStepSize_error_vars e1
      have v2 := selectStepSize_error_vars e2
      rw [e1, e2]; exact .inl ⟨_, _, _, rfl, rfl, v1.trans (hsim.vars.trans v2.symm)⟩
    rw [e1, e2]
    simp only
    rcases updateLambda_sim prm res pre (raisePenalty env.p prm o1.qp o1.dx out s.penalty) s.lambda hsim2 hst2 hq2 hc2
      with ⟨e, a, a', e1, e2⟩ | ⟨o3, o3', lam', ex, e1, e2, hsim3, hst3, hq3, hexu⟩
    · have v1 := updateLambda_error_vars e1
      have v2 := updateLambda_error_vars e2
      rw [e1, e2]; exact .inl ⟨_, _, _, rfl, rfl, v1.trans (hsim2.vars.trans v2.symm)⟩
    rw [e1, e2]
    simp only
    rw [← hst3, ← hq3, ← hsim3.state]
    exact .inr (.inr ⟨{ o3 with steps := [] }, { o3' with qp := o3.qp, state := o3.state, steps := [] }, _, _, ⟨0, o3.state, s.lambda, pre, out,
      if prm.logQPEigenvalues then some (eigenStats (env.eigenvalues o3.qp.G)) else none,
      costDerivative o1.qp o1.dx, raisePenalty env.p prm o1.qp o1.dx out s.penalty, res, o3.steps⟩, ex,
      ⟨hsim3.vars, rfl, hsim3.kind⟩, hexu, rfl, rfl⟩)

theorem loop_sim {env : Env n D α} (prm : NLSParams α) : ∀ (fuel iter : Nat) (s s' : Loop env), Core s s' →
    s.log = s'.log → s.calls = s'.calls →
    (∃ e a a', loop env prm fuel iter s = .error (e, a) ∧ loop env prm fuel iter s' = .error (e, a') ∧
      a.vars = a'.vars) ∨
    (∃ r r' t, loop env prm fuel iter s = .ok (r, t) ∧ loop env prm fuel iter s' = .ok (r', t) ∧ Core r r' ∧
      r.log = r'.log ∧ r.calls = r'.calls) := by
  intro fuel
  induction fuel with
  | zero => intro iter s s' h hl hc; exact .inr ⟨s, s', _, rfl, rfl, h, hl, hc⟩
  | succ fuel ih =>
    intro iter s s' h hl hc
    simp only [loop]
    rcases body_sim prm h iter iter with ⟨e, a, a', e1, e2, hv⟩ | ⟨a, a', e1, e2, ha⟩ |
      ⟨a, a', lam, pen, info, ex, ha, _, e1, e2⟩
    · rw [e1, e2]; exact .inl ⟨_, _, _, rfl, rfl, hv⟩
    · rw [e1, e2]
      exact .inr ⟨_, _, _, rfl, rfl, ⟨ha, h.lambda, h.penalty⟩, hl, hc⟩
    · rw [e1, e2, ← hl, ← hc]
      cases hcb : callbackFails env { info with iteration := (iter : Int) } s.calls with
      | true => exact .inl ⟨_, _, _, rfl, rfl, ha.vars⟩
      | false =>
      simp only [Bool.false_eq_true, if_false]
      cases ht : (finish env.callback { info with iteration := (iter : Int) } ex s.calls).2 with
      | some t => exact .inr ⟨_, _, _, rfl, rfl, ⟨ha, rfl, rfl⟩, rfl, rfl⟩
      | none => exact ih _ _ _ ⟨ha, rfl, rfl⟩ rfl rfl

omit [Scalar α] in
theorem chooseSolver_kind (env : Env n D α) (s s' : Solver D env.p.M env.p.K α) :
    SameKind (chooseSolver env s) (chooseSolver env s') := by
  unfold chooseSolver
  split_ifs <;> cases s <;> cases s' <;> exact trivial

/-! ## Repeating a pass -/

/-- Running the first `k` passes of a loop. -/
theorem loop_prefix {env : Env n D α} {prm : NLSParams α} : ∀ (k f iter : Nat) (S : Nat → Loop env)
    (T : Nat → Option NLSTermination),
    (∀ j, j < k → body env prm (iter + j) (S j) = .ok (S (j + 1), T j)) → (∀ j, j < k → T j = none) →
    loop env prm (k + f) iter (S 0) = loop env prm f (iter + k) (S k) := by
  intro k
  induction k with
  | zero => intro f iter S T _ _; simp
  | succ k ih =>
    intro f iter S T hb hT
    have h0 := hb 0 (by omega)
    simp only [Nat.add_zero, Nat.zero_add] at h0
    rw [show k + 1 + f = (k + f) + 1 by omega]
    simp only [loop]
    rw [h0, hT 0 (by omega)]
    simp only
    rw [ih f (iter + 1) (fun j => S (j + 1)) (fun j => T (j + 1))
      (fun j hj => by
        have := hb (j + 1) (by omega)
        rwa [show iter + (j + 1) = iter + 1 + j by omega] at this)
      (fun j hj => hT (j + 1) (by omega))]
    rw [show iter + 1 + k = iter + (k + 1) by omega]

/-- The solver member keeps its kind. -/
theorem stepDirection_kind {env : Env n D α} {prm : NLSParams α} {o o1 : env.Obj} {out : QPResult α}
    (h : stepDirection env prm o = .ok (o1, out)) : SameKind o.solver o1.solver := by
  unfold stepDirection at h
  simp only at h
  split at h
  · rename_i st hst
    split at h
    · cases h
    · split_ifs at h
      split at h
      · cases h
      · cases h; rw [hst]; trivial
  · rename_i st hst
    split at h
    · cases h
    all_goals cases h; rw [hst]; trivial

/-- A pass that ended in an unrecoverable line search failure, run again from the same state with the raised
penalty. -/
theorem body_again {env : Env n D α} {prm : NLSParams α} {k : Nat} {s s1 : Loop env} {t : Option NLSTermination}
    {w : PassData env} (hp : Pass env prm k s s1 t w)
    (hf : w.res = .failureNonFiniteCost ∨ w.res = .failureInvalidAlpha)
    (hpen : raisePenalty env.p prm w.qp w.dx w.out s1.penalty = s1.penalty) (iter : Nat)
    (log calls : List (NLSIteration α)) :
    ∃ a, ObjSim s.obj a ∧ body env prm iter ⟨s.obj, s.lambda, s1.penalty, log, calls⟩ =
      if callbackFails env { w.info with iteration := iter } calls then .error (.user, a)
      else .ok (⟨a, s.lambda, s1.penalty, log ++ [{ w.info with iteration := iter }],
        (finish env.callback { w.info with iteration := iter } none calls).1⟩,
        (finish env.callback { w.info with iteration := iter } none calls).2) := by
  obtain ⟨sol, hdir, hsol⟩ := hp.dir
  have hkind : SameKind s.obj.solver sol := stepDirection_kind hdir
  have hinfo : { w.info with iteration := (iter : Int) } = (⟨iter, s.obj.state, s.lambda, w.pre, w.out,
      if prm.logQPEigenvalues then some (eigenStats (env.eigenvalues w.qp.G)) else none,
      costDerivative w.qp w.dx, s1.penalty, w.res, w.steps⟩ : NLSIteration α) := by
    have hst : s1.obj.state = s.obj.state := by
      rw [hp.state]; rcases hf with h | h <;> rw [h] <;> rfl
    rw [← hp.ipre, ← hp.iout, ← hp.ieig, ← hp.ideriv, ← hp.ipenalty, ← hp.ires, ← hp.isteps, ← hp.ilambda, ← hst,
      ← hp.istate]
  refine ⟨{ s.obj with qp := w.qp, dx := w.dx, solver := sol, steps := [], cand := w.cand }, ⟨rfl, rfl, hkind⟩, ?_⟩
  unfold body
  simp only
  rw [hp.lin]
  simp only
  rw [hdir]
  simp only [hp.notIndef, Bool.false_eq_true, if_false, hpen]
  unfold selectStepSize
  rw [if_neg (not_not.mpr hp.penPos), if_neg hp.preValid]
  simp only
  rw [hp.ls]
  simp only
  unfold updateLambda
  rw [hinfo]
  rcases hf with h | h <;> rw [h]

/-- From a state that agrees with the repeated one, the loop only repeats the pass. -/
theorem loop_again {env : Env n D α} {prm : NLSParams α} {k : Nat} {s s1 : Loop env} {t : Option NLSTermination}
    {w : PassData env} (hp : Pass env prm k s s1 t w)
    (hf : w.res = .failureNonFiniteCost ∨ w.res = .failureInvalidAlpha)
    (hpen : raisePenalty env.p prm w.qp w.dx w.out s1.penalty = s1.penalty) : ∀ (fuel iter : Nat) (s' : Loop env),
    Core ⟨s.obj, s.lambda, s1.penalty, [], []⟩ s' →
    (∃ r tt m, loop env prm fuel iter s' = .ok (r, tt) ∧ r.obj.vars = s.obj.vars ∧ m ≤ fuel ∧
      r.log = s'.log ++ (List.range m).map (fun i => { w.info with iteration := ((iter + i : Nat) : Int) }) ∧
      ((tt = .maxIterations ∧ m = fuel) ∨ (tt = .userCallback ∧ env.callback ≠ none))) ∨
    (env.callback ≠ none ∧ ∃ ob : env.Obj, loop env prm fuel iter s' = .error (.user, ob) ∧ ob.vars = s.obj.vars) := by
  intro fuel
  induction fuel with
  | zero =>
    intro iter s' h
    exact .inl ⟨s', _, 0, rfl, h.obj.vars.symm, le_rfl, by simp, .inl ⟨rfl, rfl⟩⟩
  | succ fuel ih =>
    intro iter s' h
    obtain ⟨a, ha, hb⟩ := body_again hp hf hpen iter [] s'.calls
    have h' : Core (⟨s.obj, s.lambda, s1.penalty, [], s'.calls⟩ : Loop env) s' := ⟨h.obj, h.lambda, h.penalty⟩
    have hcbn : callbackFails env { w.info with iteration := (iter : Int) } s'.calls = true → env.callback ≠ none := by
      intro hc hn
      simp [callbackFails, hn] at hc
    cases hcf : callbackFails env { w.info with iteration := (iter : Int) } s'.calls with
    | true =>
      rw [hcf, if_pos rfl] at hb
      rcases body_sim prm h' iter iter with ⟨e, b, b', e1, e2, hv⟩ | ⟨b, b', e1, e2, _⟩ |
        ⟨b, b', lam, pen, info, ex, hab, hexu, e1, e2⟩
      · rw [hb] at e1
        cases e1
        exact .inr ⟨hcbn hcf, b', by simp only [loop]; rw [e2], hv.symm.trans ha.vars.symm⟩
      · rw [hb] at e1; cases e1
      · rw [hb] at e1
        cases hx : callbackFails env { info with iteration := (iter : Int) } s'.calls with
        | false =>
          rw [if_neg (by simp only [hx]; simp)] at e1
          cases e1
        | true =>
          rw [hx, if_pos rfl] at e1 e2
          cases e1
          exact .inr ⟨hcbn hcf, b', by simp only [loop]; rw [e2], hab.vars.symm.trans ha.vars.symm⟩
    | false =>
    rw [hcf, if_neg (by simp)] at hb
    rcases body_sim prm h' iter iter with ⟨e, b, b', e1, e2, hv⟩ | ⟨b, b', e1, e2, _⟩ |
      ⟨b, b', lam, pen, info, ex, hab, hexu, e1, e2⟩
    · rw [hb] at e1; cases e1
    · rw [hb] at e1
      simp only [Except.ok.injEq, Prod.mk.injEq, Loop.mk.injEq] at e1
      have := e1.1.2.2.2.1
      simp at this
    · rw [hb] at e1
      obtain ⟨hcf', e1⟩ := ite_error_ok e1.symm
      rw [hcf', if_neg (by simp)] at e2
      replace e1 := e1.symm
      simp only [Prod.mk.injEq, Loop.mk.injEq, List.nil_append, List.cons.injEq, and_true] at e1
      obtain ⟨⟨h1, h2, h3, h4, h5⟩, h6⟩ := e1
      have hex : ex = none := by
        rw [← h4] at h6
        unfold finish at h6
        cases hcb : env.callback with
        | none => rw [hcb] at h6; exact h6.symm
        | some cb =>
          rw [hcb] at h6
          cases ex with
          | none => rfl
          | some tt =>
            simp only at h6
            split_ifs at h6 with hc
            exact absurd h6.symm hexu
      subst hex h1 h2 h3
      rw [← h4] at e2
      simp only [loop]
      rw [e2]
      cases hfin : (finish env.callback { w.info with iteration := (iter : Int) } none s'.calls).2 with
      | some tt =>
        refine .inl ⟨_, tt, 1, rfl, ?_, by omega, by simp, .inr ?_⟩
        · exact (ha.vars.trans hab.vars).symm
        · unfold finish at hfin
          cases hcb : env.callback with
          | none => rw [hcb] at hfin; cases hfin
          | some cb =>
            rw [hcb] at hfin
            simp only at hfin
            split_ifs at hfin
            cases hfin
            exact ⟨rfl, by simp⟩
      | none =>
        simp only
        have hk : ∀ {x y z : Solver D env.p.M env.p.K α}, SameKind x y → SameKind y z → SameKind x z := by
          intro x y z h1 h2
          cases x <;> cases y <;> cases z <;> simp_all [SameKind]
        rcases ih (iter + 1)
          ⟨b', s.lambda, s1.penalty, s'.log ++ [{ w.info with iteration := (iter : Int) }],
            (finish env.callback { w.info with iteration := (iter : Int) } none s'.calls).1⟩
          ⟨⟨ha.vars.trans hab.vars, ha.state.trans hab.state, hk ha.kind hab.kind⟩, rfl, rfl⟩ with
          ⟨r, tt, m, e, hvars, hm, hlog, hend⟩ | hth
        swap
        · exact .inr hth
        refine .inl ⟨r, tt, m + 1, e, hvars, by omega, ?_, ?_⟩
        · rw [hlog, List.range_succ_eq_map, List.map_cons, List.map_map, List.append_assoc]
          congr 1
          rw [List.singleton_append, Nat.add_zero]
          congr 1
          refine List.map_congr_left fun i _ => ?_
          simp only [Function.comp]
          rw [show iter + 1 + i = iter + (i + 1) by omega]
        · rcases hend with ⟨h1, h2⟩ | h
          · exact .inl ⟨h1, by omega⟩
          · exact .inr h

end MiniOpt.NLS
