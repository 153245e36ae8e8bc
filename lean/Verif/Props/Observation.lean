import Verif.Spec.ObservationSpec
import Verif.Props.Exceptions
import Verif.Lemmas.NLSView
import Verif.Props.NLSLog

/-! Observing a solve - a callback, the logging of the eigenvalues - does not change it (C133, any arithmetic). -/

set_option autoImplicit false

namespace MiniOpt.Props

open MiniOpt MiniOpt.Spec MiniOpt.NLS

variable {α : Type} [Scalar α] {n D : Nat}

/-- One pass with a callback that does not throw, and without it. -/
theorem body_both (env : Env n D α) (hnt : ∀ l, env.callbackThrows l = false) (prm : NLSParams α) (iter : Nat) (s : Loop env) :
    (∃ e, body (withoutCallback env) prm iter (strip s) = .error e ∧ body env prm iter s = .error e) ∨
    (∃ s1 t, body env prm iter s = .ok (s1, t) ∧ body (withoutCallback env) prm iter (strip s) = .ok (strip s1, t) ∧
      (t = none → s1.log.length = s.log.length + 1)) ∨
    ∃ s1 cb, body env prm iter s = .ok (s1, some .userCallback) ∧
      body (withoutCallback env) prm iter (strip s) = .ok (strip s1, none) ∧ env.callback = some cb ∧ cb s1.calls = false ∧
      s1.log.length = s.log.length + 1 := by
  cases h1 : linearize env.p s.obj.vars s.lambda s.obj.qp with
  | error e =>
    refine .inl ⟨(e.1, { s.obj with qp := e.2 }), ?_, ?_⟩
    · unfold body
      rw [show linearize (withoutCallback env).p (strip s).obj.vars (strip s).lambda (strip s).obj.qp = .error e from h1]
      obtain ⟨e1, e2⟩ := e
      rfl
    · unfold body; rw [h1]; obtain ⟨e1, e2⟩ := e; rfl
  | ok q =>
  obtain ⟨qp, pre⟩ := q
  have h1' : linearize (withoutCallback env).p (strip s).obj.vars (strip s).lambda (strip s).obj.qp = .ok (qp, pre) := h1
  cases h2 : stepDirection env prm ({ s.obj with qp := qp } : env.Obj) with
  | error e =>
    have h2' := (stepDirection_strip env prm _).trans h2
    refine .inl ⟨e, ?_, ?_⟩
    · unfold body; rw [h1']; simp only; erw [h2']
    · unfold body; rw [h1]; simp only; rw [h2]
  | ok q =>
  obtain ⟨o1, out⟩ := q
  have h2' := (stepDirection_strip env prm _).trans h2
  by_cases hind : wasIndefinite out = true
  · refine .inr (.inl ⟨{ s with obj := o1 }, some .qpIndefinite, ?_, ?_⟩)
    · unfold body; rw [h1]; simp only; rw [h2]; simp only; rw [if_pos hind]
    · unfold body; rw [h1']; simp only; erw [h2']; simp only; rw [if_pos hind]; exact ⟨rfl, fun h => by cases h⟩
  cases h3 : selectStepSize env prm pre (costDerivative o1.qp o1.dx)
      (raisePenalty env.p prm o1.qp o1.dx out s.penalty) o1 with
  | error e =>
    have h3' := (selectStepSize_strip env prm _ _ _ _).trans h3
    refine .inl ⟨e, ?_, ?_⟩
    · unfold body; rw [h1']; simp only; erw [h2']; simp only; rw [if_neg hind]; erw [h3']
    · unfold body; rw [h1]; simp only; rw [h2]; simp only; rw [if_neg hind, h3]
  | ok q =>
  obtain ⟨o2, res⟩ := q
  have h3' := (selectStepSize_strip env prm _ _ _ _).trans h3
  cases h4 : updateLambda env prm res pre (raisePenalty env.p prm o1.qp o1.dx out s.penalty) s.lambda o2 with
  | error e =>
    refine .inl ⟨e, ?_, ?_⟩
    · unfold body; rw [h1']; simp only; erw [h2']; simp only; rw [if_neg hind]; erw [h3']; simp only
      rw [show updateLambda (withoutCallback env) prm res pre (raisePenalty (withoutCallback env).p prm o1.qp o1.dx out (strip s).penalty)
        (strip s).lambda o2 = .error e from h4]
    · unfold body; rw [h1]; simp only; rw [h2]; simp only; rw [if_neg hind, h3]; simp only; rw [h4]
  | ok q =>
  obtain ⟨o3, lam, ex⟩ := q
  have hb := body_eq (iter := iter) h1 h2 hind h3 h4
  have hb' := body_eq (env := withoutCallback env) (s := strip s) (iter := iter) h1 h2' hind h3' h4
  have hno : ∀ info, callbackFails (withoutCallback env) info (strip s).calls = false := fun _ => rfl
  have hno2 : ∀ info, callbackFails env info s.calls = false := by
    intro info
    unfold callbackFails
    cases env.callback with
    | none => rfl
    | some _ => exact hnt _
  have hfin : ∀ info, finish (withoutCallback env).callback info ex (strip s).calls = ([], ex) := fun _ => rfl
  rw [hno, hfin, if_neg (by simp)] at hb'
  rw [hno2, if_neg (by simp)] at hb
  cases hcn : env.callback with
  | none =>
    rw [hcn] at hb
    exact .inr (.inl ⟨_, ex, hb, hb', fun _ => by simp⟩)
  | some cb =>
    rw [hcn] at hb
    cases ex with
    | some t => exact .inr (.inl ⟨_, some t, hb, hb', fun h => by cases h⟩)
    | none =>
      unfold finish at hb
      dsimp only at hb
      cases hc : cb (s.calls ++ [entry env prm iter s.lambda s.penalty pre out o1 o3 res]) with
      | true =>
        rw [hc, if_pos rfl] at hb
        exact .inr (.inl ⟨_, none, hb, hb', fun _ => by simp⟩)
      | false =>
        rw [hc, if_neg (by simp)] at hb
        exact .inr (.inr ⟨_, cb, hb, hb', rfl, hc, by simp⟩)

theorem loop_both (env : Env n D α) (hnt : ∀ l, env.callbackThrows l = false) (prm : NLSParams α) :
    ∀ (fuel iter : Nat) (s : Loop env),
    (∃ e, loop (withoutCallback env) prm fuel iter (strip s) = .error e ∧ loop env prm fuel iter s = .error e) ∨
    (∃ s1 t, loop (withoutCallback env) prm fuel iter (strip s) = .ok (strip s1, t) ∧ loop env prm fuel iter s = .ok (s1, t)) ∨
    ∃ s1 cb k, loop (withoutCallback env) prm k iter (strip s) = .ok (strip s1, .maxIterations) ∧
      loop env prm fuel iter s = .ok (s1, .userCallback) ∧ env.callback = some cb ∧ cb s1.calls = false ∧
      s1.log.length = s.log.length + k := by
  intro fuel
  induction fuel with
  | zero => intro iter s; exact .inr (.inl ⟨s, _, rfl, rfl⟩)
  | succ fuel ih =>
    intro iter s
    rcases body_both env hnt prm iter s with ⟨e, h1, h2⟩ | ⟨s1, t, h2, h1, h3⟩ | ⟨s1, cb, h2, h1, h3, h4, h5⟩
    · exact .inl ⟨e, by simp only [loop, h1], by simp only [loop, h2]⟩
    · cases t with
      | some t => exact .inr (.inl ⟨s1, t, by simp only [loop, h1], by simp only [loop, h2]⟩)
      | none =>
        rcases ih (iter + 1) s1 with ⟨e, q1, q2⟩ | ⟨s2, t, q1, q2⟩ | ⟨s2, cb, k, q1, q2, q3, q4, q5⟩
        · exact .inl ⟨e, by simp only [loop, h1, q1], by simp only [loop, h2, q2]⟩
        · exact .inr (.inl ⟨s2, t, by simp only [loop, h1, q1], by simp only [loop, h2, q2]⟩)
        · refine .inr (.inr ⟨s2, cb, k + 1, by simp only [loop, h1, q1], by simp only [loop, h2, q2], q3, q4, ?_⟩)
          rw [q5, h3 rfl]; omega
    · exact .inr (.inr ⟨s1, cb, 1, by simp only [loop, h1], by simp only [loop, h2], h3, h4, h5⟩)

/-- **C133** (the callback, any arithmetic). Let the callback not throw. Then it either stops the solve by answering `false`, and what is
left is what the solve without callback leaves when `max_iterations` is the number of iterations so far; or the solve is the one without
callback, with the same result or the same exception. -/
theorem C133_callback (env : Env n D α) (hnt : ∀ l, env.callbackThrows l = false) (prm : NLSParams α) (x0 : Fin n → α) (o : env.Obj) :
    (∃ e, solve (withoutCallback env) prm x0 o = .error e ∧ solve env prm x0 o = .error e) ∨
    (∃ (o1 : env.Obj) (out : NLSOutputs α) (calls : List (NLSIteration α)), solve env prm x0 o = .ok (o1, out, calls) ∧
      solve (withoutCallback env) prm x0 o = .ok (o1, out, [])) ∨
    ∃ (o1 : env.Obj) (log : List (NLSIteration α)) (cb : List (NLSIteration α) → Bool),
      solve env prm x0 o = .ok (o1, ⟨.userCallback, log⟩, log) ∧ env.callback = some cb ∧ cb log = false ∧
      solve (withoutCallback env) { prm with maxIterations := (log.length : Int) } x0 o = .ok (o1, ⟨.maxIterations, log⟩, []) := by
  have hs : start (withoutCallback env) prm x0 o = strip (start env prm x0 o) := by
    unfold start strip
    rw [chooseSolver_strip]
    rfl
  cases hc : NLS.checkParams prm with
  | error e => exact .inl ⟨(e, o), by simp only [solve, hc]; first | done | rfl, by simp only [solve, hc]; first | done | rfl⟩
  | ok u =>
    obtain rfl : u = () := rfl
    rcases loop_both env hnt prm prm.maxIterations.toNat 0 (start env prm x0 o) with ⟨e, h1, h2⟩ | ⟨s1, t, h1, h2⟩ |
      ⟨s1, cb, k, h1, h2, h3, h4, h5⟩
    · refine .inl ⟨e, ?_, ?_⟩
      · unfold solve; rw [hc]; simp only; rw [hs, h1]
      · unfold solve; rw [hc]; simp only; rw [h2]
    · refine .inr (.inl ⟨s1.obj, ⟨t, s1.log⟩, s1.calls, ?_, ?_⟩)
      · unfold solve; rw [hc]; simp only; rw [h2]
      · unfold solve; rw [hc]; simp only; rw [hs, h1]; rfl
    · have hsol : solve env prm x0 o = .ok (s1.obj, ⟨.userCallback, s1.log⟩, s1.calls) := by
        unfold solve; rw [hc]; simp only; rw [h2]
      have hcalls := (C47_numbering_and_callback env prm x0 o _ _ _ hsol).2.2
      rw [h3, if_neg (by simp)] at hcalls
      dsimp only at hcalls
      rw [hcalls] at hsol h4
      refine .inr (.inr ⟨s1.obj, s1.log, cb, hsol, h3, h4, ?_⟩)
      have hk : s1.log.length = k := by rw [h5]; simp [start]
      unfold solve
      rw [checkParams_cap hc]
      simp only
      rw [Int.toNat_natCast, hk]
      have hs2 : start (withoutCallback env) { prm with maxIterations := (k : Int) } x0 o = strip (start env prm x0 o) := by
        unfold start strip
        rw [chooseSolver_strip]
        rfl
      rw [hs2, loop_cap, h1]
      rfl

/-- **C133** (a callback that always answers `true`). The result, the object left behind and every exception are those of the solve
without callback. -/
theorem C133_accepting (env : Env n D α) (hnt : ∀ l, env.callbackThrows l = false) (htrue : ∀ cb, env.callback = some cb → ∀ l, cb l = true)
    (prm : NLSParams α) (x0 : Fin n → α) (o : env.Obj) :
    (∃ e, solve (withoutCallback env) prm x0 o = .error e ∧ solve env prm x0 o = .error e) ∨
    ∃ (o1 : env.Obj) (out : NLSOutputs α), solve (withoutCallback env) prm x0 o = .ok (o1, out, []) ∧
      solve env prm x0 o = .ok (o1, out, if env.callback = none then [] else out.iterations) := by
  rcases C133_callback env hnt prm x0 o with h | ⟨o1, out, calls, h1, h2⟩ | ⟨o1, log, cb, -, h3, h4, -⟩
  · exact .inl h
  · refine .inr ⟨o1, out, h2, ?_⟩
    rw [h1, (C47_numbering_and_callback env prm x0 o _ _ _ h1).2.2]
  · rw [htrue cb h3 log] at h4; cases h4

/-! ## The logging of the eigenvalues -/

/-- A loop state without eigenvalue statistics. -/
def blindLoop {env : Env n D α} (s : Loop env) : Loop env := { s with log := s.log.map blind, calls := s.calls.map blind }

theorem lsLoop_log (env : Env n D α) (prm : NLSParams α) (b : Bool) (x : Fin n → α) (dx : Fin D → α)
    (pre : Errors α) (d : DirectionalDerivatives α) (pen : α) : ∀ (fuel iter : Nat) (a : α)
    (steps : List (LineSearchStep α)) (cand : Fin n → α),
    lsLoop env { prm with logQPEigenvalues := b } x dx pre d pen fuel iter a steps cand
      = lsLoop env prm x dx pre d pen fuel iter a steps cand := by
  intro fuel
  induction fuel with
  | zero => intros; rfl
  | succ fuel ih => intros; simp only [lsLoop, ih]

theorem selectStepSize_log (env : Env n D α) (prm : NLSParams α) (b : Bool) (pre : Errors α) (d : DirectionalDerivatives α) (pen : α)
    (o : env.Obj) : selectStepSize env { prm with logQPEigenvalues := b } pre d pen o = selectStepSize env prm pre d pen o := by
  unfold selectStepSize
  simp only [lsLoop_log]

theorem body_log (env : Env n D α) (hi : IgnoresEigenvalues env) (prm : NLSParams α) (iter : Nat) (s : Loop env) :
    body env { prm with logQPEigenvalues := false } iter (blindLoop s) =
      match body env { prm with logQPEigenvalues := true } iter s with
      | .error e => .error e
      | .ok (s1, t) => .ok (blindLoop s1, t) := by
  have hfail : ∀ i i' : NLSIteration α, i' = blind i → callbackFails env i' (s.calls.map blind) = callbackFails env i s.calls := by
    rintro i _ rfl
    unfold callbackFails
    cases env.callback with
    | none => rfl
    | some _ => rw [← hi.throws (s.calls ++ [i])]; simp
  have hfin : ∀ (i i' : NLSIteration α) ex, i' = blind i → finish env.callback i' ex (s.calls.map blind)
      = ((finish env.callback i ex s.calls).1.map blind, (finish env.callback i ex s.calls).2) := by
    rintro i _ ex rfl
    unfold finish
    cases hc : env.callback with
    | none => rfl
    | some cb =>
      have := hi.answer cb hc (s.calls ++ [i])
      rw [List.map_append] at this
      cases ex with
      | none =>
        dsimp only
        rw [← this]
        simp
      | some t => simp
  have hd : ∀ b ob, stepDirection env { prm with logQPEigenvalues := b } ob = stepDirection env prm ob := fun _ _ => rfl
  have hu : ∀ b r pr pn l ob, updateLambda env { prm with logQPEigenvalues := b } r pr pn l ob = updateLambda env prm r pr pn l ob :=
    fun _ _ _ _ _ _ => rfl
  have hr : ∀ b q x r p, raisePenalty env.p { prm with logQPEigenvalues := b } q x r p = raisePenalty env.p prm q x r p :=
    fun _ _ _ _ _ => rfl
  unfold body
  simp only [hd, hu, hr, selectStepSize_log]
  dsimp only [blindLoop]
  cases linearize env.p s.obj.vars s.lambda s.obj.qp with
  | error e => rfl
  | ok q =>
  obtain ⟨qp, pre⟩ := q
  dsimp only
  cases stepDirection env prm ({ s.obj with qp := qp } : env.Obj) with
  | error e => rfl
  | ok q =>
  obtain ⟨o1, out⟩ := q
  dsimp only
  by_cases hind : wasIndefinite out = true
  · rw [if_pos hind, if_pos hind]
  rw [if_neg hind, if_neg hind]
  cases selectStepSize env prm pre (costDerivative o1.qp o1.dx) (raisePenalty env.p prm o1.qp o1.dx out s.penalty) o1 with
  | error e => rfl
  | ok q =>
  obtain ⟨o2, res⟩ := q
  dsimp only
  cases updateLambda env prm res pre (raisePenalty env.p prm o1.qp o1.dx out s.penalty) s.lambda o2 with
  | error e => rfl
  | ok q =>
  obtain ⟨o3, lam, ex⟩ := q
  dsimp only
  have e1 := hfail ⟨iter, o3.state, s.lambda, pre, out, some (eigenStats (env.eigenvalues o3.qp.G)), costDerivative o1.qp o1.dx,
    raisePenalty env.p prm o1.qp o1.dx out s.penalty, res, o3.steps⟩ _ rfl
  have e2 := hfin ⟨iter, o3.state, s.lambda, pre, out, some (eigenStats (env.eigenvalues o3.qp.G)), costDerivative o1.qp o1.dx,
    raisePenalty env.p prm o1.qp o1.dx out s.penalty, res, o3.steps⟩ _ ex rfl
  dsimp only [blind] at e1 e2
  simp only [if_true, if_false, Bool.false_eq_true]
  rw [e1, e2]
  split_ifs
  · rfl
  · simp [blind]

theorem loop_log (env : Env n D α) (hi : IgnoresEigenvalues env) (prm : NLSParams α) : ∀ (fuel iter : Nat) (s : Loop env),
    loop env { prm with logQPEigenvalues := false } fuel iter (blindLoop s) =
      match loop env { prm with logQPEigenvalues := true } fuel iter s with
      | .error e => .error e
      | .ok (s1, t) => .ok (blindLoop s1, t) := by
  intro fuel
  induction fuel with
  | zero => intro iter s; rfl
  | succ fuel ih =>
    intro iter s
    unfold loop
    rw [body_log env hi]
    cases body env { prm with logQPEigenvalues := true } iter s with
    | error e => rfl
    | ok q =>
      obtain ⟨s1, t⟩ := q
      cases t with
      | some t => rfl
      | none => exact ih _ _

/-- **C133** (`log_qp_eigenvalues`, any arithmetic). If the callback does not look at the eigenvalue statistics, switching them on changes
nothing but their presence in the log: same result, same object left behind, same exception. -/
theorem C133_eigenvalues (env : Env n D α) (hi : IgnoresEigenvalues env) (prm : NLSParams α) (x0 : Fin n → α) (o : env.Obj) :
    solve env { prm with logQPEigenvalues := false } x0 o =
      match solve env { prm with logQPEigenvalues := true } x0 o with
      | .error e => .error e
      | .ok (o1, out, calls) => .ok (o1, ⟨out.termination, out.iterations.map blind⟩, calls.map blind) := by
  have hc : NLS.checkParams { prm with logQPEigenvalues := false } = NLS.checkParams { prm with logQPEigenvalues := true } := rfl
  have hs : start env { prm with logQPEigenvalues := false } x0 o = blindLoop (start env { prm with logQPEigenvalues := true } x0 o) := rfl
  have hl := loop_log env hi prm prm.maxIterations.toNat 0 (start env { prm with logQPEigenvalues := true } x0 o)
  unfold solve
  rw [hc, hs]
  cases NLS.checkParams { prm with logQPEigenvalues := true } with
  | error e => rfl
  | ok u =>
    dsimp only
    rw [hl]
    cases loop env { prm with logQPEigenvalues := true } prm.maxIterations.toNat 0
      (start env { prm with logQPEigenvalues := true } x0 o) with
    | error e => rfl
    | ok q => rfl

end MiniOpt.Props
