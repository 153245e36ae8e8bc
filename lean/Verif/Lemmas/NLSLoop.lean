import Verif.Lemmas.LineSearch

/-!
# One pass of the outer loop, and the trajectory of a solve (any arithmetic)
-/

set_option autoImplicit false

namespace MiniOpt.NLS

variable {α : Type} [Scalar α] {n D : Nat}

/-- What one logged pass of the loop computed. -/
structure PassData (env : Env n D α) where
  qp : QPData D env.p.M env.p.K α
  pre : Errors α
  out : QPResult α
  dx : Fin D → α
  res : StepResult
  steps : List (LineSearchStep α)
  cand : Fin n → α
  exit : Option NLSTermination
  info : NLSIteration α

/-- `lambda` after the pass (`nonlinear.cc:306-334`). -/
def nextLambda (prm : NLSParams α) (st : OptimizerState) (res : StepResult) (lambda : α) : α :=
  match res, st with
  | .success, .attemptingRestoreLM => cmax (lambda * prm.lambdaDecreaseOnRestore) prm.minLambda
  | .success, .nominal => cmax (lambda * prm.lambdaDecreaseOnSuccess) prm.minLambda
  | .maxIterations, .nominal | .positiveDerivative, .nominal => cmax prm.lambdaFailureInit (lambda * Scalar.lit 10)
  | .maxIterations, .attemptingRestoreLM | .positiveDerivative, .attemptingRestoreLM => lambda * Scalar.lit 10
  | _, _ => lambda

/-- `state_` after the pass (`nonlinear.cc:311`, `nonlinear.cc:330`). -/
def nextState (st : OptimizerState) : StepResult → OptimizerState
  | .success => .nominal
  | .maxIterations | .positiveDerivative => .attemptingRestoreLM
  | _ => st

/-- The exit decision of `UpdateLambdaAndCheckExitConditions` given the last step (`nonlinear.cc:314-342`). -/
def exitOf (prm : NLSParams α) (res : StepResult) (pre : Errors α) (pen lambda' : α)
    (last : Option (LineSearchStep α)) : Option NLSTermination :=
  match res, last with
  | .success, some final =>
    if final.errors.lInfinity < prm.absoluteExitTol then some .satisfiedAbsoluteTol
    else if pre.total pen * (1 - prm.relativeExitTol) < final.errors.total pen then some .satisfiedRelativeTol
    else none
  | .firstOrderSatisfied, _ => some .satisfiedFirstOrderTol
  | .maxIterations, _ | .positiveDerivative, _ => if prm.maxLambda < lambda' then some .maxLambda else none
  | _, _ => none

/-- The facts about a logged pass from `s` to `s'`. -/
structure Pass (env : Env n D α) (prm : NLSParams α) (iter : Nat) (s s' : Loop env) (t : Option NLSTermination)
    (w : PassData env) : Prop where
  lin : linearize env.p s.obj.vars s.lambda s.obj.qp = .ok (w.qp, w.pre)
  dir : ∃ sol, stepDirection env prm { s.obj with qp := w.qp }
    = .ok ({ s.obj with qp := w.qp, dx := w.dx, solver := sol }, w.out) ∧ s'.obj.solver = sol
  notIndef : wasIndefinite w.out = false
  penalty : s'.penalty = raisePenalty env.p prm w.qp w.dx w.out s.penalty
  penPos : 0 < s'.penalty
  preValid : ¬ w.pre.containsInvalid
  ls : lsLoop env prm s.obj.vars w.dx w.pre (costDerivative w.qp w.dx) s'.penalty
    (prm.maxLineSearchIterations + 1).toNat 0 1 [] s.obj.cand = .ok (w.res, w.steps, w.cand)
  vars : s'.obj.vars = if w.res = .success then w.cand else s.obj.vars
  qp : s'.obj.qp = w.qp
  dx : s'.obj.dx = w.dx
  state : s'.obj.state = nextState s.obj.state w.res
  lambda : s'.lambda = nextLambda prm s.obj.state w.res s.lambda
  exit : w.exit = exitOf prm w.res w.pre s'.penalty s'.lambda w.steps.getLast?
  stepsNe : w.res = .success → w.steps ≠ []
  log : s'.log = s.log ++ [w.info]
  calls : s'.calls = (finish env.callback w.info w.exit s.calls).1
  term : t = (finish env.callback w.info w.exit s.calls).2
  iiter : w.info.iteration = iter
  istate : w.info.optimizerState = s'.obj.state
  ilambda : w.info.lambda = s.lambda
  ipre : w.info.errorsInitial = w.pre
  iout : w.info.qpOutputs = w.out
  ieig : w.info.qpEigenvalues =
    if prm.logQPEigenvalues then some (eigenStats (env.eigenvalues w.qp.G)) else none
  ideriv : w.info.directionalDerivatives = costDerivative w.qp w.dx
  ipenalty : w.info.penalty = s'.penalty
  ires : w.info.stepResult = w.res
  isteps : w.info.lineSearchSteps = w.steps

theorem stepDirection_frame {env : Env n D α} {prm : NLSParams α} {o o1 : env.Obj} {out : QPResult α}
    (h : stepDirection env prm o = .ok (o1, out)) :
    o1 = { o with dx := o1.dx, solver := o1.solver } := by
  unfold stepDirection at h
  simp only at h
  split at h
  · split at h
    · cases h
    · split_ifs at h
      split at h
      · cases h
      · cases h; rfl
  · split at h
    · cases h
    · cases h; rfl
    · cases h; rfl

theorem selectStepSize_ok {env : Env n D α} {prm : NLSParams α} {pre : Errors α} {d : DirectionalDerivatives α}
    {pen : α} {o o2 : env.Obj} {res : StepResult} (h : selectStepSize env prm pre d pen o = .ok (o2, res)) :
    0 < pen ∧ ¬ pre.containsInvalid ∧
      lsLoop env prm o.vars o.dx pre d pen (prm.maxLineSearchIterations + 1).toNat 0 1 [] o.cand
        = .ok (res, o2.steps, o2.cand) ∧ o2 = { o with steps := o2.steps, cand := o2.cand } := by
  unfold selectStepSize at h
  split_ifs at h with h1 h2
  split at h
  · cases h
  · rename_i r s c hl
    cases h
    exact ⟨h1, h2, hl, rfl⟩

theorem updateLambda_ok {env : Env n D α} {prm : NLSParams α} {res : StepResult} {pre : Errors α}
    {pen lambda lambda' : α} {o o3 : env.Obj} {exit : Option NLSTermination}
    (h : updateLambda env prm res pre pen lambda o = .ok (o3, lambda', exit)) :
    o3 = { o with
      vars := if res = .success then o.cand else o.vars
      cand := if res = .success then o.vars else o.cand
      state := nextState o.state res } ∧
    lambda' = nextLambda prm o.state res lambda ∧
    exit = exitOf prm res pre pen lambda' o.steps.getLast? ∧ (res = .success → o.steps ≠ []) := by
  unfold updateLambda at h
  split at h
  · split at h
    · cases h
    · rename_i final hf
      cases h
      refine ⟨rfl, ?_, ?_, ?_⟩
      · cases ho : o.state <;> simp [nextLambda]
      · simp [exitOf, hf]
      · intro _ hnil; simp [hnil] at hf
  · cases h; exact ⟨rfl, rfl, rfl, fun h => by cases h⟩
  · cases h
    refine ⟨rfl, ?_, ?_, fun h => by cases h⟩
    · cases ho : o.state <;> simp [nextLambda]
    · simp [exitOf]
  · cases h
    refine ⟨rfl, ?_, ?_, fun h => by cases h⟩
    · cases ho : o.state <;> simp [nextLambda]
    · simp [exitOf]
  · cases h; exact ⟨rfl, rfl, rfl, fun h => by cases h⟩
  · cases h; exact ⟨rfl, rfl, rfl, fun h => by cases h⟩

theorem ite_error_ok {ε β : Type} {c : Bool} {e : ε} {a b : β}
    (h : (if c = true then Except.error e else Except.ok a) = Except.ok b) : c = false ∧ a = b := by
  cases c
  · simp only [Bool.false_eq_true, if_false, Except.ok.injEq] at h
    exact ⟨rfl, h⟩
  · simp at h

/-- A pass either finds the QP indefinite (and then changes only the object's `qp_`, `solver_` and `dx_`), or is
logged. -/
theorem body_ok {env : Env n D α} {prm : NLSParams α} {iter : Nat} {s s' : Loop env} {t : Option NLSTermination}
    (h : body env prm iter s = .ok (s', t)) :
    (∃ qp pre o1 out, linearize env.p s.obj.vars s.lambda s.obj.qp = .ok (qp, pre) ∧
      stepDirection env prm { s.obj with qp := qp } = .ok (o1, out) ∧ wasIndefinite out = true ∧
      s' = { s with obj := o1 } ∧ t = some .qpIndefinite) ∨
    ∃ w, Pass env prm iter s s' t w := by
  unfold body at h
  split at h
  · cases h
  · rename_i qp pre hlin
    split at h
    · cases h
    · rename_i o1 out hdir
      simp only at h
      by_cases hind : wasIndefinite out = true
      · rw [if_pos hind] at h
        cases h
        exact .inl ⟨qp, pre, o1, out, hlin, hdir, hind, rfl, rfl⟩
      · rw [if_neg hind] at h
        split at h
        · cases h
        · rename_i o2 res hsel
          split at h
          · cases h
          · rename_i o3 lambda' exit hupd
            have hf := stepDirection_frame hdir
            obtain ⟨hp, hv, hls, ho2⟩ := selectStepSize_ok hsel
            obtain ⟨ho3, hlam, hex, hne⟩ := updateLambda_ok hupd
            right
            have q1 : o1.qp = qp := by have e := congrArg Obj.qp hf; exact e
            have v1 : o1.vars = s.obj.vars := by have e := congrArg Obj.vars hf; exact e
            have c1 : o1.cand = s.obj.cand := by have e := congrArg Obj.cand hf; exact e
            have st1 : o1.state = s.obj.state := by have e := congrArg Obj.state hf; exact e
            have q2 : o2.qp = qp := (show _ = _ by have e := congrArg Obj.qp ho2; exact e).trans q1
            have v2 : o2.vars = s.obj.vars := (show _ = _ by have e := congrArg Obj.vars ho2; exact e).trans v1
            have d2 : o2.dx = o1.dx := by have e := congrArg Obj.dx ho2; exact e
            have st2 : o2.state = s.obj.state := (show _ = _ by have e := congrArg Obj.state ho2; exact e).trans st1
            have so2 : o2.solver = o1.solver := by have e := congrArg Obj.solver ho2; exact e
            rw [q1] at hls hp
            rw [v1, c1] at hls
            obtain ⟨hcb, h⟩ := ite_error_ok h
            cases h
            refine ⟨⟨qp, pre, out, o1.dx, res, o2.steps, o2.cand, exit, ?_⟩, ?_⟩
            rotate_left
            · constructor
              case lin => exact hlin
              case dir => exact ⟨o1.solver, by rw [hdir]; exact congrArg (fun a => Except.ok (a, out)) hf, (show _ = _ by have e := congrArg Obj.solver ho3; exact e).trans so2⟩
              case notIndef => simpa using hind
              case penalty => simp only [q1]
              case penPos => simp only [q1]; exact hp
              case preValid => exact hv
              case ls => simp only [q1]; exact hls
              case vars => exact (show _ = _ by have e := congrArg Obj.vars ho3; exact e).trans (by simp only [v2])
              case qp => exact (show _ = _ by have e := congrArg Obj.qp ho3; exact e).trans q2
              case dx => exact (show _ = _ by have e := congrArg Obj.dx ho3; exact e).trans d2
              case state => exact (show _ = _ by have e := congrArg Obj.state ho3; exact e).trans (by simp only [st2])
              case lambda => simp only [hlam, st2]
              case exit => simp only [hex, q1]
              case stepsNe => exact hne
              case log => rfl
              case calls => rfl
              case term => rfl
              case iiter => rfl
              case istate => rfl
              case ilambda => rfl
              case ipre => rfl
              case iout => rfl
              case ieig => simp only [show o3.qp = qp from (show _ = _ by have e := congrArg Obj.qp ho3; exact e).trans q2]
              case ideriv => simp only [q1]
              case ipenalty => rfl
              case ires => rfl
              case isteps => have e := congrArg Obj.steps ho3; exact e

/-- The trajectory of a solve: the loop states `S 0, ..., S len`, one pass from each to the next. -/
structure Traj (env : Env n D α) (prm : NLSParams α) (s0 : Loop env) (maxIter : Nat) (len : Nat)
    (S : Nat → Loop env) (T : Nat → Option NLSTermination) (sEnd : Loop env) (t : NLSTermination) : Prop where
  start : S 0 = s0
  last : S len = sEnd
  step : ∀ k, k < len → body env prm k (S k) = .ok (S (k + 1), T k)
  cont : ∀ k, k + 1 < len → T k = none
  le : len ≤ maxIter
  stop : (len = maxIter ∧ t = .maxIterations ∧ ∀ k, k < len → T k = none) ∨
    (0 < len ∧ T (len - 1) = some t)

theorem loop_traj (env : Env n D α) (prm : NLSParams α) : ∀ (fuel : Nat) (iter : Nat) (s sEnd : Loop env)
    (t : NLSTermination), loop env prm fuel iter s = .ok (sEnd, t) →
    ∃ (len : Nat) (S : Nat → Loop env) (T : Nat → Option NLSTermination), S 0 = s ∧ S len = sEnd ∧
      (∀ k, k < len → body env prm (iter + k) (S k) = .ok (S (k + 1), T k)) ∧
      (∀ k, k + 1 < len → T k = none) ∧ len ≤ fuel ∧
      ((len = fuel ∧ t = .maxIterations ∧ ∀ k, k < len → T k = none) ∨
        (0 < len ∧ T (len - 1) = some t)) := by
  intro fuel
  induction fuel with
  | zero =>
    intro iter s sEnd t h
    simp only [loop] at h
    cases h
    exact ⟨0, fun _ => s, fun _ => none, rfl, rfl, by simp, by simp, le_rfl, .inl ⟨rfl, rfl, by simp⟩⟩
  | succ fuel ih =>
    intro iter s sEnd t h
    simp only [loop] at h
    split at h
    · cases h
    · rename_i s' t' hb
      cases h
      refine ⟨1, fun k => if k = 0 then s else sEnd, fun _ => some t, by simp, by simp, ?_, by omega, by omega,
        .inr ⟨by omega, rfl⟩⟩
      intro k hk
      have : k = 0 := by omega
      subst this
      simpa using hb
    · rename_i s' hb
      obtain ⟨len, S, T, h0, hl, hstep, hcont, hle, hstop⟩ := ih (iter + 1) s' sEnd t h
      refine ⟨len + 1, fun k => match k with | 0 => s | k + 1 => S k,
        fun k => match k with | 0 => none | k + 1 => T k, rfl, hl, ?_, ?_, by omega, ?_⟩
      · intro k hk
        cases k with
        | zero => simp only [h0]; simpa using hb
        | succ k =>
          simp only
          have := hstep k (by omega)
          rw [show iter + (k + 1) = iter + 1 + k by omega]
          exact this
      · intro k hk
        cases k with
        | zero => rfl
        | succ k => exact hcont k (by omega)
      · rcases hstop with ⟨h1, h2, h3⟩ | ⟨h1, h2⟩
        · left
          refine ⟨by omega, h2, ?_⟩
          intro k hk
          cases k with
          | zero => rfl
          | succ k => exact h3 k (by omega)
        · right
          refine ⟨by omega, ?_⟩
          have e : len + 1 - 1 = (len - 1) + 1 := by omega
          rw [e]; exact h2

/-- Every solve that returns has a trajectory. -/
theorem solve_traj {env : Env n D α} {prm : NLSParams α} {x0 : Fin n → α} {o o' : env.Obj}
    {out : NLSOutputs α} {calls : List (NLSIteration α)} (h : solve env prm x0 o = .ok (o', out, calls)) :
    checkParams prm = .ok () ∧ ∃ (len : Nat) (S : Nat → Loop env) (T : Nat → Option NLSTermination) (sEnd : Loop env),
      Traj env prm (start env prm x0 o) prm.maxIterations.toNat len S T sEnd out.termination ∧
      sEnd.obj = o' ∧ sEnd.log = out.iterations ∧ sEnd.calls = calls := by
  unfold solve at h
  split at h
  · cases h
  · rename_i hc
    split at h
    · cases h
    · rename_i s t hl
      cases h
      obtain ⟨len, S, T, h0, hl, hstep, hcont, hle, hstop⟩ := loop_traj env prm _ 0 _ _ _ hl
      exact ⟨hc, len, S, T, s, ⟨h0, hl, fun k hk => by simpa using hstep k hk, hcont, hle, hstop⟩, rfl, rfl, rfl⟩

variable {env : Env n D α} {prm : NLSParams α} {s0 sEnd : Loop env} {maxIter len : Nat} {S : Nat → Loop env}
  {T : Nat → Option NLSTermination} {t : NLSTermination}

theorem Pass.term_ne {iter : Nat} {s s' : Loop env} {t : Option NLSTermination} {w : PassData env}
    (h : Pass env prm iter s s' t w) : t ≠ some .qpIndefinite := by
  have hx : w.exit ≠ some .qpIndefinite := by
    rw [h.exit]
    unfold exitOf
    split
    · split_ifs <;> simp
    · simp
    · split_ifs <;> simp
    · split_ifs <;> simp
    · simp
  rw [h.term]
  unfold finish
  split
  · exact hx
  · split
    · rename_i he; rw [he] at hx; exact hx
    · dsimp only
      split_ifs <;> simp

/-- Every pass of a trajectory is logged, except the last one when the QP was indefinite. -/
theorem Traj.pass (h : Traj env prm s0 maxIter len S T sEnd t) (k : Nat) (hk : k < len)
    (hne : t ≠ .qpIndefinite ∨ k + 1 < len) : ∃ w, Pass env prm k (S k) (S (k + 1)) (T k) w := by
  rcases body_ok (h.step k hk) with ⟨qp, pre, o1, out, _, _, _, _, ht⟩ | hw
  · exfalso
    rcases Nat.lt_or_ge (k + 1) len with hlt | hge
    · rw [h.cont k hlt] at ht; cases ht
    · rcases hne with hne | hne
      · rcases h.stop with ⟨_, _, h3⟩ | ⟨_, h2⟩
        · rw [h3 k hk] at ht; cases ht
        · rw [show len - 1 = k by omega, ht] at h2
          cases h2; exact hne rfl
      · omega
  · exact hw

/-- Number of logged iterations of a trajectory. -/
def logged (len : Nat) (t : NLSTermination) : Nat := if t = .qpIndefinite then len - 1 else len

theorem Traj.pass' (h : Traj env prm s0 maxIter len S T sEnd t) (k : Nat) (hk : k < logged len t) :
    ∃ w, Pass env prm k (S k) (S (k + 1)) (T k) w := by
  unfold logged at hk
  split_ifs at hk with hq
  · exact h.pass k (by omega) (.inr (by omega))
  · exact h.pass k hk (.inl hq)

theorem Traj.logged_le (_ : Traj env prm s0 maxIter len S T sEnd t) : logged len t ≤ len := by
  unfold logged; split_ifs <;> omega

/-- The last pass of a solve that ended with an indefinite QP. -/
theorem Traj.indefinite (h : Traj env prm s0 maxIter len S T sEnd .qpIndefinite) :
    0 < len ∧ ∃ qp pre o1 out, linearize env.p (S (len - 1)).obj.vars (S (len - 1)).lambda (S (len - 1)).obj.qp
        = .ok (qp, pre) ∧
      stepDirection env prm { (S (len - 1)).obj with qp := qp } = .ok (o1, out) ∧ wasIndefinite out = true ∧
      sEnd = { (S (len - 1)) with obj := o1 } := by
  rcases h.stop with ⟨_, h2, _⟩ | ⟨h1, h2⟩
  · cases h2
  · refine ⟨h1, ?_⟩
    have hs := h.step (len - 1) (by omega)
    rw [h2, show len - 1 + 1 = len by omega, h.last] at hs
    rcases body_ok hs with ⟨qp, pre, o1, out, a, b, c, d, _⟩ | ⟨w, hw⟩
    · exact ⟨qp, pre, o1, out, a, b, c, d⟩
    · exact absurd rfl hw.term_ne

/-- Log and final state of a trajectory that started with an empty log. -/
theorem Traj.log_eq (h : Traj env prm s0 maxIter len S T sEnd t) (h0 : s0.log = []) :
    ∃ W : Nat → PassData env,
      (∀ k, k < logged len t → Pass env prm k (S k) (S (k + 1)) (T k) (W k)) ∧
      (∀ k, k ≤ logged len t → (S k).log = (List.range k).map fun j => (W j).info) ∧
      sEnd.log = (List.range (logged len t)).map fun j => (W j).info := by
  classical
  have hp : ∀ k, ∃ w : PassData env, k < logged len t → Pass env prm k (S k) (S (k + 1)) (T k) w := by
    intro k
    by_cases hk : k < logged len t
    · obtain ⟨w, hw⟩ := h.pass' k hk
      exact ⟨w, fun _ => hw⟩
    · refine ⟨⟨(S 0).obj.qp, ⟨0, 0⟩, .nullSpace .success, (S 0).obj.dx, .success, [], (S 0).obj.cand, none,
        ⟨0, .nominal, 0, ⟨0, 0⟩, .nullSpace .success, none, ⟨0, 0⟩, 0, .success, []⟩⟩, fun h => absurd h hk⟩
  choose W hW using hp
  have hlog : ∀ k, k ≤ logged len t → (S k).log = (List.range k).map fun j => (W j).info := by
    intro k
    induction k with
    | zero => intro _; rw [h.start, h0]; rfl
    | succ k ih =>
      intro hk
      rw [(hW k (by omega)).log, ih (by omega), List.range_succ, List.map_append]
      rfl
  refine ⟨W, hW, hlog, ?_⟩
  by_cases hq : t = .qpIndefinite
  · subst hq
    obtain ⟨hpos, qp, pre, o1, out, _, _, _, hs⟩ := h.indefinite
    have hl : logged len .qpIndefinite = len - 1 := by simp [logged]
    have hh := hlog (len - 1) (by omega)
    rw [hl, ← hh]
    rw [hs]
  · have hl : logged len t = len := by simp [logged, hq]
    rw [← h.last, hl]
    exact hlog len (by omega)

end MiniOpt.NLS
