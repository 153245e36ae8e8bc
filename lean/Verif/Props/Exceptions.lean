import Verif.Props.NLSReuse
import Verif.Props.NLSDescent
import Verif.Props.NLSBounds
import Verif.Lemmas.DemoNLS

/-!
# C81: what an exception leaves behind

`Solve` may end by an exception: an assertion, a failed factorisation, or an exception of a residual, the retraction or
the callback. The variables of the solver object are then those after some number of complete iterations.
-/

set_option autoImplicit false

namespace MiniOpt.Props

open MiniOpt.Spec MiniOpt.NLS

variable {α : Type} [Scalar α] {n D : Nat}

/-- The same problem and solver, without user callback. -/
def withoutCallback (env : Env n D α) : Env n D α := { env with callback := none }

/-- A loop state, seen by the solver without callback. -/
def strip {env : Env n D α} (s : Loop env) : Loop (withoutCallback env) := ⟨s.obj, s.lambda, s.penalty, s.log, []⟩

theorem lsLoop_strip (env : Env n D α) (prm : NLSParams α) (x : Fin n → α) (dx : Fin D → α)
    (pre : Errors α) (d : DirectionalDerivatives α) (pen : α) : ∀ (fuel iter : Nat) (a : α)
    (steps : List (LineSearchStep α)) (cand : Fin n → α),
    lsLoop (withoutCallback env) prm x dx pre d pen fuel iter a steps cand
      = lsLoop env prm x dx pre d pen fuel iter a steps cand := by
  intro fuel
  induction fuel with
  | zero => intros; rfl
  | succ fuel ih => intros; simp only [lsLoop, ih]; rfl

theorem selectStepSize_strip (env : Env n D α) (prm : NLSParams α) (pre : Errors α) (d : DirectionalDerivatives α)
    (pen : α) (o : env.Obj) :
    selectStepSize (withoutCallback env) prm pre d pen o = selectStepSize env prm pre d pen o := by
  unfold selectStepSize
  rw [lsLoop_strip]
  cases lsLoop env prm o.vars o.dx pre d pen (prm.maxLineSearchIterations + 1).toNat 0 1 [] o.cand <;> rfl

theorem stepDirection_strip (env : Env n D α) (prm : NLSParams α) (o : env.Obj) :
    stepDirection (withoutCallback env) prm o = stepDirection env prm o := by
  obtain ⟨p, R, cb, E, NE, ev, fi, fn, rt, ct⟩ := env
  obtain ⟨qp, sol, c, d, e, f, g⟩ := o
  unfold stepDirection withoutCallback
  dsimp only at *
  cases sol with
  | ip st =>
    dsimp only
    cases checkIndices D (List.ofFn qp.con) with
    | error e => rfl
    | ok u =>
      dsimp only
      by_cases h : ∀ i, 0 ≤ (qp.con i).var ∧ (qp.con i).var < (D : Int)
      · rw [dif_pos h, dif_pos h]
        cases IP.solve E (qp.typed h) (qpParams p prm) (IP.setupState st) <;> rfl
      · rw [dif_neg h, dif_neg h]
  | ns st =>
    dsimp only

omit [Scalar α] in
theorem chooseSolver_strip (env : Env n D α) (s : Solver D env.p.M env.p.K α) :
    chooseSolver (withoutCallback env) s = chooseSolver env s := by
  cases s <;> rfl

/-- The entry of the log written by a pass. -/
def entry (env : Env n D α) (prm : NLSParams α) (iter : Nat) (lambda penalty : α) (pre : Errors α) (out : QPResult α)
    (o1 o3 : env.Obj) (res : StepResult) : NLSIteration α :=
  ⟨iter, o3.state, lambda, pre, out,
    if prm.logQPEigenvalues then some (eigenStats (env.eigenvalues o3.qp.G)) else none,
    costDerivative o1.qp o1.dx, raisePenalty env.p prm o1.qp o1.dx out penalty, res, o3.steps⟩

theorem body_eq {env : Env n D α} {prm : NLSParams α} {iter : Nat} {s : Loop env}
    {qp : QPData D env.p.M env.p.K α} {pre : Errors α} {o1 o2 o3 : env.Obj} {out : QPResult α} {res : StepResult}
    {lam : α} {ex : Option NLSTermination}
    (h1 : linearize env.p s.obj.vars s.lambda s.obj.qp = .ok (qp, pre))
    (h2 : stepDirection env prm { s.obj with qp := qp } = .ok (o1, out)) (hind : ¬ wasIndefinite out = true)
    (h3 : selectStepSize env prm pre (costDerivative o1.qp o1.dx)
      (raisePenalty env.p prm o1.qp o1.dx out s.penalty) o1 = .ok (o2, res))
    (h4 : updateLambda env prm res pre (raisePenalty env.p prm o1.qp o1.dx out s.penalty) s.lambda o2 = .ok (o3, lam, ex)) :
    body env prm iter s = if callbackFails env (entry env prm iter s.lambda s.penalty pre out o1 o3 res) s.calls
      then .error (.user, { o3 with steps := [] })
      else .ok (⟨{ o3 with steps := [] }, lam, raisePenalty env.p prm o1.qp o1.dx out s.penalty,
          s.log ++ [entry env prm iter s.lambda s.penalty pre out o1 o3 res],
          (finish env.callback (entry env prm iter s.lambda s.penalty pre out o1 o3 res) ex s.calls).1⟩,
        (finish env.callback (entry env prm iter s.lambda s.penalty pre out o1 o3 res) ex s.calls).2) := by
  unfold body
  rw [h1]
  simp only
  rw [h2]
  simp only
  rw [if_neg hind, h3]
  simp only
  rw [h4]
  rfl

/-- One pass, with and without the callback. -/
theorem body_strip (env : Env n D α) (prm : NLSParams α) (iter : Nat) (s : Loop env) :
    (∃ e ob, body env prm iter s = .error (e, ob) ∧ ob.vars = s.obj.vars) ∨
    (∃ ob s1 t, body env prm iter s = .error (.user, ob) ∧
      body (withoutCallback env) prm iter (strip s) = .ok (s1, t) ∧ s1.obj = ob ∧ s1.log.length = s.log.length + 1) ∨
    (∃ s', body env prm iter s = .ok (s', none) ∧
      body (withoutCallback env) prm iter (strip s) = .ok (strip s', none) ∧ s'.log.length = s.log.length + 1) ∨
    ∃ s' t, body env prm iter s = .ok (s', some t) := by
  cases h1 : linearize env.p s.obj.vars s.lambda s.obj.qp with
  | error e => exact .inl ⟨e.1, { s.obj with qp := e.2 }, by unfold body; rw [h1], rfl⟩
  | ok q =>
  obtain ⟨qp, pre⟩ := q
  cases h2 : stepDirection env prm ({ s.obj with qp := qp } : env.Obj) with
  | error e =>
    have hv := stepDirection_error_vars (e := e.1) (a := e.2) h2
    exact .inl ⟨e.1, e.2, by unfold body; rw [h1]; simp only; rw [h2], hv⟩
  | ok q =>
  obtain ⟨o1, out⟩ := q
  have hf := stepDirection_frame h2
  have v1 : o1.vars = s.obj.vars := by have e := congrArg Obj.vars hf; exact e
  by_cases hind : wasIndefinite out = true
  · exact .inr (.inr (.inr ⟨{ s with obj := o1 }, .qpIndefinite, by
      unfold body; rw [h1]; simp only; rw [h2]; simp only; rw [if_pos hind]⟩))
  cases h3 : selectStepSize env prm pre (costDerivative o1.qp o1.dx)
      (raisePenalty env.p prm o1.qp o1.dx out s.penalty) o1 with
  | error e =>
    have hv := selectStepSize_error_vars (e := e.1) (a := e.2) h3
    exact .inl ⟨e.1, e.2, by unfold body; rw [h1]; simp only; rw [h2]; simp only; rw [if_neg hind, h3], hv.trans v1⟩
  | ok q =>
  obtain ⟨o2, res⟩ := q
  obtain ⟨-, -, -, ho2⟩ := selectStepSize_ok h3
  have v2 : o2.vars = o1.vars := by have e := congrArg Obj.vars ho2; exact e
  cases h4 : updateLambda env prm res pre (raisePenalty env.p prm o1.qp o1.dx out s.penalty) s.lambda o2 with
  | error e =>
    have hv := updateLambda_error_vars (e := e.1) (a := e.2) h4
    exact .inl ⟨e.1, e.2, by
      unfold body; rw [h1]; simp only; rw [h2]; simp only; rw [if_neg hind, h3]; simp only; rw [h4],
      hv.trans (v2.trans v1)⟩
  | ok q =>
  obtain ⟨o3, lam, ex⟩ := q
  have hb := body_eq (iter := iter) h1 h2 hind h3 h4
  have hb' := body_eq (env := withoutCallback env) (s := strip s) (iter := iter) h1
    ((stepDirection_strip env prm _).trans h2) hind ((selectStepSize_strip env prm _ _ _ _).trans h3) h4
  have hno : ∀ info, callbackFails (withoutCallback env) info (strip s).calls = false := fun _ => rfl
  have hfin : ∀ info, finish (withoutCallback env).callback info ex (strip s).calls = ([], ex) := fun _ => rfl
  rw [hno, hfin, if_neg (by simp)] at hb'
  cases hcb : callbackFails env (entry env prm iter s.lambda s.penalty pre out o1 o3 res) s.calls with
  | true =>
    rw [hcb, if_pos rfl] at hb
    exact .inr (.inl ⟨_, _, _, hb, hb', rfl, by simp [strip]⟩)
  | false =>
    rw [hcb, if_neg (by simp)] at hb
    cases ht : (finish env.callback (entry env prm iter s.lambda s.penalty pre out o1 o3 res) ex s.calls).2 with
    | some t =>
      rw [ht] at hb
      exact .inr (.inr (.inr ⟨_, _, hb⟩))
    | none =>
      have hex : ex = none := by
        unfold finish at ht
        cases hcn : env.callback with
        | none => rw [hcn] at ht; exact ht
        | some cb =>
          rw [hcn] at ht
          cases ex with
          | none => rfl
          | some t => simp at ht
      rw [ht] at hb
      rw [hex] at hb'
      exact .inr (.inr (.inl ⟨_, hb, hb', by simp⟩))

/-- A loop that threw, seen without the callback. -/
theorem loop_strip (env : Env n D α) (prm : NLSParams α) : ∀ (fuel iter : Nat) (s : Loop env) (e : Fault) (ob : env.Obj),
    loop env prm fuel iter s = .error (e, ob) →
    ∃ k s1 t, k ≤ fuel ∧ loop (withoutCallback env) prm k iter (strip s) = .ok (s1, t) ∧ s1.obj.vars = ob.vars ∧
      s1.log.length = s.log.length + k := by
  intro fuel
  induction fuel with
  | zero => intro iter s e ob h; cases h
  | succ fuel ih =>
    intro iter s e ob h
    simp only [loop] at h
    rcases body_strip env prm iter s with ⟨e', ob', hb, hv⟩ | ⟨ob', s1, t, hb, hb', ho, hl⟩ | ⟨s', hb, hb', hl⟩ |
      ⟨s', t, hb⟩
    · rw [hb] at h
      cases h
      exact ⟨0, strip s, _, by omega, rfl, hv.symm, rfl⟩
    · rw [hb] at h
      cases h
      refine ⟨1, s1, t.getD .maxIterations, by omega, ?_, congrArg Obj.vars ho, hl⟩
      simp only [loop]
      rw [hb']
      cases t <;> rfl
    · rw [hb] at h
      simp only at h
      obtain ⟨k, s1, t, hk, hloop, hv, hlen⟩ := ih _ _ _ _ h
      refine ⟨k + 1, s1, t, by omega, ?_, hv, by omega⟩
      simp only [loop]
      rw [hb']
      exact hloop
    · rw [hb] at h; cases h

/-- **C81**. If `Solve`, called with documented parameters, ends by an exception (an assertion, a failed factorisation,
or an exception of a residual, the retraction or the callback), the variables of the solver object are those after some
number `k` of complete iterations: what `Solve` without callback leaves when `max_iterations` is `k`. No half-finished
step is visible. -/
theorem C81_exception_safety (env : Env n D α) (prm : NLSParams α) (hprm : NLSParamsValid prm) (x0 : Fin n → α)
    (o ob : env.Obj) (e : Fault) (h : solve env prm x0 o = .error (e, ob)) :
    ∃ (k : Nat) (a : env.Obj), (k : Int) ≤ prm.maxIterations ∧ After (withoutCallback env) prm x0 o k a ∧
      ob.vars = a.vars := by
  unfold solve at h
  have hc := (checkParams_iff prm).mpr hprm
  rw [hc] at h
  simp only at h
  have hl : loop env prm prm.maxIterations.toNat 0 (start env prm x0 o) = .error (e, ob) := by
    cases hl : loop env prm prm.maxIterations.toNat 0 (start env prm x0 o) with
    | error e' => rw [hl] at h; simpa using h
    | ok q => rw [hl] at h; cases h
  obtain ⟨k, s1, t, hk, hloop, hv, hlen⟩ := loop_strip env prm _ _ _ _ _ hl
  have hm := hprm.maxIterations
  refine ⟨k, s1.obj, by omega, ⟨⟨t, s1.log⟩, s1.calls, ?_, ?_⟩, hv.symm⟩
  · unfold solve
    rw [checkParams_cap hc k]
    simp only
    rw [Int.toNat_natCast]
    have hs : start (withoutCallback env) { prm with maxIterations := (k : Int) } x0 o = strip (start env prm x0 o) := by
      unfold start strip
      rw [chooseSolver_strip]
      rfl
    rw [hs, loop_cap, hloop]
  · simpa [start] using hlen

/-- **C81** (rejected parameters). With undocumented parameters the variables are not even set to the start. -/
theorem C81_rejected (env : Env n D α) (prm : NLSParams α) (hprm : ¬ NLSParamsValid prm) (x0 : Fin n → α) (o : env.Obj) :
    ∃ e, solve env prm x0 o = .error (e, o) := by
  unfold solve
  cases hc : NLS.checkParams prm with
  | ok u => exact absurd ((checkParams_iff prm).mp hc) hprm
  | error e => exact ⟨e, rfl⟩

/-- **C81** (exceptions are repeatable). Whatever two solver objects contain, also after earlier exceptions, the same call
of `Solve` with documented parameters throws on both or on neither, and when it throws the exceptions and the variables
left behind agree. -/
theorem C81_repeatable (env : Env n D α) (prm : NLSParams α) (hprm : NLSParamsValid prm) (x0 : Fin n → α)
    (o1 o2 a : env.Obj) (e : Fault) (h : solve env prm x0 o1 = .error (e, a)) :
    ∃ b : env.Obj, solve env prm x0 o2 = .error (e, b) ∧ b.vars = a.vars := by
  unfold solve at h ⊢
  rw [(checkParams_iff prm).mpr hprm] at h ⊢
  simp only at h ⊢
  rcases loop_sim prm prm.maxIterations.toNat 0 (start env prm x0 o1) (start env prm x0 o2)
      ⟨⟨rfl, rfl, chooseSolver_kind env _ _⟩, rfl, rfl⟩ rfl rfl with
      ⟨e', a', b', e1, e2, hv⟩ | ⟨r, r', t, e1, e2, -⟩
  · rw [e1] at h
    cases h
    rw [e2]
    exact ⟨b', rfl, hv.symm⟩
  · rw [e1] at h; cases h

/-- **C81** (cost). Without equality constraints the cost of the variables left by an exception is at most the cost of
the start. -/
theorem C81_cost (env : Env n D ℝ) (hc : ConsistentP env.p) (he : env.p.eqs = []) (prm : NLSParams ℝ)
    (hprm : NLSParamsValid prm) (x0 : Fin n → ℝ) (o ob : env.Obj) (e : Fault)
    (h : solve env prm x0 o = .error (e, ob)) : costAt env.p ob.vars ≤ costAt env.p x0 := by
  obtain ⟨k, a, -, ⟨out, calls, hs, -⟩, hv⟩ := C81_exception_safety env prm hprm x0 o ob e h
  rw [hv]
  exact (C37_cost_never_increases (withoutCallback env) hc he _ x0 o a out calls hs).1

/-- **C81** (bounds). The variables left by an exception keep every bound as well as the start does, up to `1e-9`. -/
theorem C81_bounds (env : Env D D ℝ) (hr : env.retraction = none)
    (hbox : ∃ w : Fin D → ℝ, ∀ c ∈ env.p.ineq, 0 ≤ boundAt c w) (prm : NLSParams ℝ) (hprm : NLSParamsValid prm)
    (x0 : Fin D → ℝ) (o ob : env.Obj) (e : Fault) (h : solve env prm x0 o = .error (e, ob)) (c : Ineq ℝ)
    (hc : c ∈ env.p.ineq) : min (boundAt c x0) (-1e-9) ≤ boundAt c ob.vars := by
  obtain ⟨k, a, -, ⟨out, calls, hs, -⟩, hv⟩ := C81_exception_safety env prm hprm x0 o ob e h
  rw [hv]
  exact (C49_bounds (withoutCallback env) hr hbox _ x0 o a out calls hs c hc).2.1

/-! ## Examples -/

open MiniOpt.DemoNLS

/-- The example solver with a callback that throws on its third call. -/
def throwingCallback : Env 1 1 Rt :=
  { env1 sqrt2 (some fun _ => true) with callbackThrows := fun l => decide (l.length = 3) }

/-- `x² - 2`, as a residual that throws when its Jacobian is wanted between 1.43 and 1.5. -/
def fragile : Residual Rt where
  dim := 1
  P := 1
  index _ := 0
  value p _ := ⟨(p 0).v * (p 0).v - 2⟩
  valueJ p _ := ⟨(p 0).v * (p 0).v - 2⟩
  jac p _ _ := ⟨2 * (p 0).v⟩
  throwsJ p := decide (143 / 100 < (p 0).v ∧ (p 0).v < 3 / 2)

/-- What a throwing run leaves: the exception and the variable. -/
def leaves (env : Env 1 1 Rt) (o : env.Obj) (prm : NLSParams Rt) (x0 : ℚ) : Option (Fault × ℚ) :=
  match solve env prm (fun _ => ⟨x0⟩) o with
  | .ok _ => none
  | .error (e, ob) => some (e, (ob.vars 0).v)

theorem leaves_run {env : Env 1 1 Rt} {o : env.Obj} {prm : NLSParams Rt} {x0 : ℚ} {e : Fault} {x : ℚ}
    (h : leaves env o prm x0 = some (e, x)) :
    ∃ ob, solve env prm (fun _ => ⟨x0⟩) o = .error (e, ob) ∧ (ob.vars 0).v = x := by
  unfold leaves at h
  split at h
  · cases h
  · rename_i e' ob hs
    simp only [Option.some.injEq, Prod.mk.injEq] at h
    rw [← h.1]
    exact ⟨ob, hs, h.2⟩

/-- The callback throws after three accepted steps; the run without callback and with at most three iterations ends at
the same point. -/
theorem run_throwing_callback :
    leaves throwingCallback (obj1 sqrt2 (some fun _ => true)) (prm 10) 5 =
      (summary sqrt2 none (prm 3) 5).map (fun s => (.user, s.2.2.2)) ∧
    (summary sqrt2 none (prm 3) 5).isSome = true := by decide +kernel

theorem run_throwing_residual :
    leaves (env1 fragile none) (obj1 fragile none) (prm 10) 5 = (summary sqrt2 none (prm 3) 5).map (fun s => (.user, s.2.2.2)) := by decide +kernel

example : ∃ ob, solve throwingCallback (prm 10) (fun _ => ⟨5⟩) (obj1 sqrt2 (some fun _ => true)) = .error (.user, ob) := by
  obtain ⟨s, hs⟩ := Option.isSome_iff_exists.mp run_throwing_callback.2
  obtain ⟨ob, h, -⟩ := leaves_run (run_throwing_callback.1.trans (by rw [hs]; rfl))
  exact ⟨ob, h⟩

end MiniOpt.Props
