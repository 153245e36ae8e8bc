import Verif.Lemmas.NLSView
import Verif.Props.QPResult
import Verif.Lemmas.DemoNLS

/-!
# C38, C39, C46, C47, C54: what the nonlinear solver's log means (any arithmetic)

More concrete cases: `Props/MoreExamples.lean`.
-/

set_option autoImplicit false

namespace MiniOpt.Props

open MiniOpt.Spec MiniOpt.NLS

variable {α : Type} [Scalar α] {n D : Nat}

theorem lt_of_getElem? {β : Type} {l : List β} {k : Nat} {a : β} (h : l[k]? = some a) : k < l.length := by
  by_contra hn
  rw [List.getElem?_eq_none (by omega)] at h
  cases h

/-- The data `w` of a logged pass is the one of log entry `k`. -/
theorem view_info {env : Env n D α} {prm : NLSParams α} {x0 : Fin n → α} {o o' : env.Obj} {out : NLSOutputs α}
    {calls : List (NLSIteration α)} {S : Nat → Loop env} {T : Nat → Option NLSTermination}
    {W : Nat → PassData env} (hv : View env prm x0 o o' out calls S T W) {k : Nat} {it : NLSIteration α}
    (h : out.iterations[k]? = some it) :
    k < out.iterations.length ∧ it = (W k).info ∧ Pass env prm k (S k) (S (k + 1)) (T k) (W k) := by
  have hk := lt_of_getElem? h
  have := hv.log k hk
  rw [h] at this
  exact ⟨hk, Option.some.inj this, hv.pass k hk⟩

/-- The state after any number of logged iterations exists, is unique, starts with the given variables and ends
with the returned ones. -/
theorem C38_after (env : Env n D α) (prm : NLSParams α) (x0 : Fin n → α) (o o' : env.Obj) (out : NLSOutputs α)
    (calls : List (NLSIteration α)) (h : solve env prm x0 o = .ok (o', out, calls)) :
    (∀ k ≤ out.iterations.length, ∃! ob, After env prm x0 o k ob) ∧
    (∀ ob, After env prm x0 o 0 ob → ob.vars = x0) ∧
    (∀ ob, After env prm x0 o out.iterations.length ob → ob.vars = o'.vars) := by
  obtain ⟨S, T, W, hv⟩ := solve_view h
  refine ⟨fun k hk => ⟨(S k).obj, (hv.after k hk _).mpr rfl, fun ob hob => (hv.after k hk ob).mp hob⟩, ?_, ?_⟩
  · intro ob hob
    rw [(hv.after 0 (by omega) ob).mp hob, hv.start]; rfl
  · intro ob hob
    rw [(hv.after _ le_rfl ob).mp hob, hv.vars]

/-- **C38**. An iteration logged `SUCCESS` moves the variables by the last logged `alpha` along its direction;
any other iteration leaves them as they were. -/
theorem C38_variables_move (env : Env n D α) (prm : NLSParams α) (x0 : Fin n → α) (o o' : env.Obj)
    (out : NLSOutputs α) (calls : List (NLSIteration α)) (h : solve env prm x0 o = .ok (o', out, calls))
    (k : Nat) (it : NLSIteration α) (hit : out.iterations[k]? = some it) (a b : env.Obj)
    (ha : After env prm x0 o k a) (hb : After env prm x0 o (k + 1) b) :
    (it.stepResult = .success → ∃ st, it.lineSearchSteps.getLast? = some st ∧
      Moves env a.vars b.dx st.alpha b.vars) ∧
    (it.stepResult ≠ .success → b.vars = a.vars) := by
  obtain ⟨S, T, W, hv⟩ := solve_view h
  obtain ⟨hk, rfl, hp⟩ := view_info hv hit
  rw [(hv.after k (by omega) a).mp ha, (hv.after (k + 1) (by omega) b).mp hb]
  obtain ⟨htr, hout, hlast⟩ := lsLoop_start _ _ _ _ _ _ _ _ _ _ _ _ hp.ls
  rw [hp.ires, hp.isteps, hp.vars, hp.dx]
  constructor
  · intro hs
    rw [if_pos hs]
    have hne := hp.stepsNe hs
    obtain ⟨st, hst⟩ : ∃ st, (W k).steps.getLast? = some st := by
      cases hg : (W k).steps.getLast? with
      | none => exact absurd (List.getLast?_eq_none_iff.mp hg) hne
      | some st => exact ⟨st, rfl⟩
    exact ⟨st, hst, retract_moves (hlast st hst)⟩
  · intro hs; rw [if_neg hs]

/-- The outcome of `ComputeStepDirection`: which solver ran on which QP, and that `dx` is its solution. -/
theorem stepDirection_cases {env : Env n D α} {prm : NLSParams α} {ob o1 : env.Obj} {out : QPResult α}
    (h : stepDirection env prm ob = .ok (o1, out)) :
    (∃ (hcon : ∀ i, 0 ≤ (ob.qp.con i).var ∧ (ob.qp.con i).var < (D : Int)) (s s' : IPState D env.p.M env.p.K α)
      (q : QPOutputs α), ob.solver = .ip s ∧ o1.solver = .ip s' ∧
      IP.solve env.E (ob.qp.typed hcon) (qpParams env.p prm) (IP.setupState s) = .ok (s', q) ∧
      out = .interiorPoint q ∧ o1.dx = s'.v.x) ∨
    (∃ (s s' : NSState D α) (t : NullSpaceTermination), ob.solver = .ns s ∧ o1.solver = .ns s' ∧
      NS.solve env.NE (⟨ob.qp.G, ob.qp.c, ob.qp.A, ob.qp.b, Fin.elim0⟩ : QP D 0 env.p.K α) s = .ok (s', t) ∧
      out = .nullSpace t ∧ (t = .success → o1.dx = s'.x)) := by
  unfold stepDirection at h
  simp only at h
  split at h
  · rename_i st hs
    split at h
    · cases h
    · split_ifs at h with hcon
      split at h
      · cases h
      · rename_i s' q hq
        cases h
        exact .inl ⟨hcon, st, s', q, hs, rfl, hq, rfl, rfl⟩
  · rename_i st hs
    split at h
    · cases h
    · rename_i s' hq
      cases h
      exact .inr ⟨st, s', .success, hs, rfl, hq, rfl, fun _ => rfl⟩
    · rename_i s' hq
      cases h
      exact .inr ⟨st, s', .notPositiveDefinite, hs, rfl, hq, rfl, fun h => by cases h⟩

/-- **C38** (the direction). The direction of iteration `k` is the solution the QP solver returned for the problem
linearised at the variables reached after `k` iterations, with the logged damping; the logged QP outputs are those
of this call. -/
theorem C38_direction (env : Env n D α) (prm : NLSParams α) (x0 : Fin n → α) (o o' : env.Obj)
    (out : NLSOutputs α) (calls : List (NLSIteration α)) (h : solve env prm x0 o = .ok (o', out, calls))
    (k : Nat) (it : NLSIteration α) (hit : out.iterations[k]? = some it) (a b : env.Obj)
    (ha : After env prm x0 o k a) (hb : After env prm x0 o (k + 1) b) :
    linearize env.p a.vars it.lambda a.qp = .ok (b.qp, it.errorsInitial) ∧
    it.directionalDerivatives = costDerivative b.qp b.dx ∧
    ((∃ (hcon : ∀ i, 0 ≤ (b.qp.con i).var ∧ (b.qp.con i).var < (D : Int)) (s s' : IPState D env.p.M env.p.K α)
      (q : QPOutputs α),
      IP.solve env.E (b.qp.typed hcon) (qpParams env.p prm) (IP.setupState s) = .ok (s', q) ∧
      it.qpOutputs = .interiorPoint q ∧ b.dx = s'.v.x) ∨
    (∃ (s s' : NSState D α),
      NS.solve env.NE (⟨b.qp.G, b.qp.c, b.qp.A, b.qp.b, Fin.elim0⟩ : QP D 0 env.p.K α) s = .ok (s', .success) ∧
      it.qpOutputs = .nullSpace .success ∧ b.dx = s'.x)) := by
  obtain ⟨S, T, W, hv⟩ := solve_view h
  obtain ⟨hk, rfl, hp⟩ := view_info hv hit
  rw [(hv.after k (by omega) a).mp ha, (hv.after (k + 1) (by omega) b).mp hb]
  rw [hp.ilambda, hp.ipre, hp.ideriv, hp.iout, hp.dx]
  refine ⟨by rw [hp.qp]; exact hp.lin, by rw [hp.qp], ?_⟩
  obtain ⟨sol, hd, _⟩ := hp.dir
  rcases stepDirection_cases hd with ⟨hcon, s, s', q, _, _, h1, h2, h3⟩ | ⟨s, s', t, _, _, h1, h2, h3⟩
  · left
    rw [hp.qp]
    exact ⟨hcon, s, s', q, h1, h2, h3⟩
  · right
    have ht : t = .success := by
      cases t with
      | success => rfl
      | notPositiveDefinite => have := hp.notIndef; rw [h2] at this; cases this
    subst ht
    rw [hp.qp]
    exact ⟨s, s', h1, h2, h3 rfl⟩

/-- The hypotheses of C38/C39 are met: a run with four accepted steps and a final one that is not, and a run that
stalls. -/
example : ∃ o' out calls, solve (DemoNLS.env1 DemoNLS.sqrt2 none) (DemoNLS.prm 10) (fun _ => ⟨5⟩)
      (DemoNLS.obj1 DemoNLS.sqrt2 none) = .ok (o', out, calls) ∧
    out.iterations.map (·.stepResult) = [.success, .success, .success, .success, .firstOrderSatisfied] := by
  obtain ⟨o', out, calls, h, _, h2⟩ := DemoNLS.summary_run' DemoNLS.run_sqrt2
  exact ⟨o', out, calls, h, h2⟩

example : ConsistentP (DemoNLS.env1 DemoNLS.sqrt2 none).p := by
  intro r hr p
  have : r = DemoNLS.sqrt2 := by simpa [DemoNLS.env1] using hr
  subst this; rfl

/-- **C39**. Logged errors are the errors of the problem: `errors_initial` at the variables reached so far, every
line-search entry at the variables moved by its `alpha`. -/
theorem C39_logged_errors (env : Env n D α) (hp : ConsistentP env.p) (prm : NLSParams α) (x0 : Fin n → α)
    (o o' : env.Obj) (out : NLSOutputs α) (calls : List (NLSIteration α))
    (h : solve env prm x0 o = .ok (o', out, calls))
    (k : Nat) (it : NLSIteration α) (hit : out.iterations[k]? = some it) (a b : env.Obj)
    (ha : After env prm x0 o k a) (hb : After env prm x0 o (k + 1) b) :
    it.errorsInitial = errorsAt env.p a.vars ∧
    (∀ st ∈ it.lineSearchSteps, ∃ y, Moves env a.vars b.dx st.alpha y ∧ st.errors = errorsAt env.p y) ∧
    (it.stepResult = .success → ∃ st, it.lineSearchSteps.getLast? = some st ∧
      st.errors = errorsAt env.p b.vars) := by
  obtain ⟨S, T, W, hv⟩ := solve_view h
  obtain ⟨hk, rfl, hw⟩ := view_info hv hit
  rw [(hv.after k (by omega) a).mp ha, (hv.after (k + 1) (by omega) b).mp hb]
  obtain ⟨htr, hout, hlast⟩ := lsLoop_start _ _ _ _ _ _ _ _ _ _ _ _ hw.ls
  rw [hw.ipre, hw.isteps, hw.ires, hw.dx]
  refine ⟨(linearize_errors hp hw.lin).2, ?_, ?_⟩
  · intro st hst
    obtain ⟨c, hc, he⟩ := htr.entry st hst
    exact ⟨c, retract_moves hc, ((evalErrors_ok_iff _ _ _).mp he).2⟩
  · intro hs
    have hne := hw.stepsNe hs
    obtain ⟨st, hst⟩ : ∃ st, (W k).steps.getLast? = some st := by
      cases hg : (W k).steps.getLast? with
      | none => exact absurd (List.getLast?_eq_none_iff.mp hg) hne
      | some st => exact ⟨st, rfl⟩
    refine ⟨st, hst, ?_⟩
    obtain ⟨c, hc, he⟩ := htr.entry st (List.mem_of_getLast? hst)
    rw [hlast st hst] at hc
    cases hc
    rw [hw.vars, if_pos hs]
    exact ((evalErrors_ok_iff _ _ _).mp he).2

/-- **C39** (chaining). The next `errors_initial` is the last line-search entry after a `SUCCESS`, otherwise the
previous `errors_initial`. -/
theorem C39_errors_chain (env : Env n D α) (hp : ConsistentP env.p) (prm : NLSParams α) (x0 : Fin n → α)
    (o o' : env.Obj) (out : NLSOutputs α) (calls : List (NLSIteration α))
    (h : solve env prm x0 o = .ok (o', out, calls))
    (k : Nat) (it it' : NLSIteration α) (hit : out.iterations[k]? = some it)
    (hit' : out.iterations[k + 1]? = some it') :
    (it.stepResult = .success → ∃ st, it.lineSearchSteps.getLast? = some st ∧ it'.errorsInitial = st.errors) ∧
    (it.stepResult ≠ .success → it'.errorsInitial = it.errorsInitial) := by
  obtain ⟨hex, _, _⟩ := C38_after env prm x0 o o' out calls h
  have hk := lt_of_getElem? hit'
  obtain ⟨a, ha, _⟩ := hex k (by omega)
  obtain ⟨b, hb, _⟩ := hex (k + 1) (by omega)
  obtain ⟨c, hc, _⟩ := hex (k + 2) (by omega)
  obtain ⟨h1, _, h3⟩ := C39_logged_errors env hp prm x0 o o' out calls h k it hit a b ha hb
  obtain ⟨h1', _, _⟩ := C39_logged_errors env hp prm x0 o o' out calls h (k + 1) it' hit' b c hb hc
  obtain ⟨_, hm⟩ := C38_variables_move env prm x0 o o' out calls h k it hit a b ha hb
  constructor
  · intro hs
    obtain ⟨st, hst, he⟩ := h3 hs
    exact ⟨st, hst, by rw [h1', he]⟩
  · intro hs
    rw [h1', hm hs, h1]

/-! ## C46 -/

/-- The optimizer state before log entry `k`: `NOMINAL` at the start, otherwise what the previous entry reports. -/
def stateBefore (its : List (NLSIteration α)) (k : Nat) : OptimizerState :=
  if k = 0 then .nominal else ((its[k - 1]?).map (·.optimizerState)).getD .nominal

/-- The raised damping after a failed line search: times ten, and at least `lambda_failure_init` when leaving the
nominal state. -/
def raisedLambda (prm : NLSParams α) (before : OptimizerState) (lambda : α) : α :=
  match before with
  | .nominal => cmax prm.lambdaFailureInit (lambda * Scalar.lit 10)
  | .attemptingRestoreLM => lambda * Scalar.lit 10

/-- What a solver exit says about the last logged iteration, given the state before it. -/
def ExitMeans (prm : NLSParams α) (before : OptimizerState) (it : NLSIteration α) : NLSTermination → Prop
  | .satisfiedAbsoluteTol => it.stepResult = .success ∧ ∃ st, it.lineSearchSteps.getLast? = some st ∧
      st.errors.lInfinity < prm.absoluteExitTol
  | .satisfiedRelativeTol => it.stepResult = .success ∧ ∃ st, it.lineSearchSteps.getLast? = some st ∧
      ¬ st.errors.lInfinity < prm.absoluteExitTol ∧
      it.errorsInitial.total it.penalty * (1 - prm.relativeExitTol) < st.errors.total it.penalty
  | .satisfiedFirstOrderTol => it.stepResult = .firstOrderSatisfied ∧
      it.directionalDerivatives.lInfinity < prm.absoluteFirstDerivativeTol
  | .maxLambda => (it.stepResult = .maxIterations ∨ it.stepResult = .positiveDerivative) ∧
      it.optimizerState = .attemptingRestoreLM ∧ prm.maxLambda < raisedLambda prm before it.lambda
  | _ => False

/-- The exit decision of a logged pass holds exactly when its meaning does. -/
theorem exit_iff {env : Env n D α} {prm : NLSParams α} {k : Nat} {s s' : Loop env}
    {t : Option NLSTermination} {w : PassData env} (hp : Pass env prm k s s' t w) (e : NLSTermination) :
    w.exit = some e ↔ ExitMeans prm s.obj.state w.info e := by
  obtain ⟨_, hout, _⟩ := lsLoop_start _ _ _ _ _ _ _ _ _ _ _ _ hp.ls
  have hf := hout.facts
  have hex := hp.exit
  have hst := hp.istate.trans hp.state
  rw [hp.lambda] at hex
  unfold ExitMeans
  rw [hp.ires, hp.isteps, hp.ipre, hp.ipenalty, hp.ideriv, hp.ilambda, hst, hex]
  cases hr : w.res with
  | success =>
    obtain ⟨st, hl, _⟩ := hf.success hr
    simp only [exitOf, hl]
    by_cases h1 : st.errors.lInfinity < prm.absoluteExitTol
    · simp only [if_pos h1]
      cases e <;> simp [h1]
    · simp only [if_neg h1]
      by_cases h2 : w.pre.total s'.penalty * (1 - prm.relativeExitTol) < st.errors.total s'.penalty
      · simp only [if_pos h2]
        cases e <;> simp [h1, h2]
      · simp only [if_neg h2]
        cases e <;> simp [h1, h2]
  | firstOrderSatisfied =>
    obtain ⟨st, hl, _, hlt⟩ := hf.firstOrder hr
    cases e <;> simp [exitOf, hlt]
  | maxIterations =>
    simp only [exitOf]
    have hn : nextLambda prm s.obj.state .maxIterations s.lambda = raisedLambda prm s.obj.state s.lambda := by
      cases s.obj.state <;> rfl
    rw [hn]
    by_cases h1 : prm.maxLambda < raisedLambda prm s.obj.state s.lambda
    · simp only [if_pos h1]; cases e <;> simp [h1, nextState]
    · simp only [if_neg h1]; cases e <;> simp [h1]
  | positiveDerivative =>
    simp only [exitOf]
    have hn : nextLambda prm s.obj.state .positiveDerivative s.lambda = raisedLambda prm s.obj.state s.lambda := by
      cases s.obj.state <;> rfl
    rw [hn]
    by_cases h1 : prm.maxLambda < raisedLambda prm s.obj.state s.lambda
    · simp only [if_pos h1]; cases e <;> simp [h1, nextState]
    · simp only [if_neg h1]; cases e <;> simp [h1]
  | failureNonFiniteCost => cases e <;> simp [exitOf]
  | failureInvalidAlpha => cases e <;> simp [exitOf]

/-- The state before an entry is the one the solver was in. -/
theorem view_state {env : Env n D α} {prm : NLSParams α} {x0 : Fin n → α} {o o' : env.Obj} {out : NLSOutputs α}
    {calls : List (NLSIteration α)} {S : Nat → Loop env} {T : Nat → Option NLSTermination}
    {W : Nat → PassData env} (hv : View env prm x0 o o' out calls S T W) (k : Nat) (hk : k ≤ out.iterations.length) :
    (S k).obj.state = stateBefore out.iterations k := by
  unfold stateBefore
  cases k with
  | zero => rw [hv.start]; rfl
  | succ k =>
    simp only [Nat.add_one_ne_zero, if_false, Nat.add_sub_cancel]
    rw [hv.log k (by omega)]
    exact (hv.pass k (by omega)).istate.symm

/-- The calls the callback has seen after `k` logged iterations: all of them, in order, if there is a callback. -/
theorem view_calls {env : Env n D α} {prm : NLSParams α} {x0 : Fin n → α} {o o' : env.Obj} {out : NLSOutputs α}
    {calls : List (NLSIteration α)} {S : Nat → Loop env} {T : Nat → Option NLSTermination}
    {W : Nat → PassData env} (hv : View env prm x0 o o' out calls S T W) : ∀ k, k ≤ out.iterations.length →
    (S k).calls = if env.callback = none then [] else out.iterations.take k := by
  intro k
  induction k with
  | zero => intro _; rw [hv.start]; simp [start]
  | succ k ih =>
    intro hk
    have hp := hv.pass k (by omega)
    have hl := hv.log k (by omega)
    rw [hp.calls, ih (by omega)]
    cases hcb : env.callback with
    | none => simp [finish]
    | some cb =>
      simp only [reduceCtorEq, if_false, finish]
      rw [List.take_add_one, hl]
      split <;> rfl

/-- Which QP solver is in use. -/
theorem view_solver {env : Env n D α} {prm : NLSParams α} {x0 : Fin n → α} {o o' : env.Obj} {out : NLSOutputs α}
    {calls : List (NLSIteration α)} {S : Nat → Loop env} {T : Nat → Option NLSTermination}
    {W : Nat → PassData env} (hv : View env prm x0 o o' out calls S T W) : ∀ k, k ≤ out.iterations.length →
    ((∃ s, (S k).obj.solver = .ns s) ↔ env.p.ineq = [] ∧ env.p.eqs ≠ []) := by
  intro k
  induction k with
  | zero =>
    intro _
    rw [hv.start]
    show (∃ s, chooseSolver env o.solver = .ns s) ↔ _
    unfold chooseSolver
    by_cases hc : env.p.ineq = [] ∧ env.p.eqs ≠ []
    · rw [if_pos hc]
      constructor
      · intro _; exact hc
      · intro _; cases o.solver <;> exact ⟨_, rfl⟩
    · rw [if_neg hc]
      constructor
      · rintro ⟨s, hs⟩; cases ho : o.solver <;> rw [ho] at hs <;> cases hs
      · intro h; exact absurd h hc
  | succ k ih =>
    intro hk
    rw [← ih (by omega)]
    obtain ⟨sol, hd, hs⟩ := (hv.pass k (by omega)).dir
    rw [hs]
    rcases stepDirection_cases hd with ⟨_, s, s', q, h1, h2, _⟩ | ⟨s, s', t, h1, h2, _⟩
    · have h1' : (S k).obj.solver = .ip s := h1
      have h2' : sol = .ip s' := h2
      rw [h1', h2']; simp
    · have h1' : (S k).obj.solver = .ns s := h1
      have h2' : sol = .ns s' := h2
      rw [h1', h2']; simp

/-- **C46**. Every termination state means what it says. -/
theorem C46_termination (env : Env n D α) (prm : NLSParams α) (x0 : Fin n → α) (o o' : env.Obj)
    (out : NLSOutputs α) (calls : List (NLSIteration α)) (h : solve env prm x0 o = .ok (o', out, calls)) :
    match out.termination with
    | .maxIterations => (out.iterations.length : Int) = prm.maxIterations
    | .userCallback => ∃ cb, env.callback = some cb ∧ out.iterations ≠ [] ∧ cb out.iterations = false
    | .qpIndefinite => (out.iterations.length : Int) < prm.maxIterations ∧ env.p.ineq = [] ∧ env.p.eqs ≠ [] ∧
        ∃ (lambda : α) (qp qp0 : QPData D env.p.M env.p.K α) (pre : Errors α) (s s' : NSState D α),
          linearize env.p o'.vars lambda qp0 = .ok (qp, pre) ∧
          NS.solve env.NE (⟨qp.G, qp.c, qp.A, qp.b, Fin.elim0⟩ : QP D 0 env.p.K α) s
            = .ok (s', .notPositiveDefinite)
    | t => ∃ it, out.iterations.getLast? = some it ∧
        ExitMeans prm (stateBefore out.iterations (out.iterations.length - 1)) it t := by
  obtain ⟨S, T, W, hv⟩ := solve_view h
  rcases hv.stop with ⟨h1, h2, _⟩ | ⟨hne, hpos, hT, hobj⟩ | ⟨h1, h2, h3, qp, pre, o1, res, hlin, hdir, hind, ho⟩
  · rw [h1]; exact h2
  · have hp := hv.pass (out.iterations.length - 1) (by omega)
    have hl := hv.log (out.iterations.length - 1) (by omega)
    have hlast : out.iterations.getLast? = some (W (out.iterations.length - 1)).info := by
      rw [List.getLast?_eq_getElem?]; exact hl
    have ht := hp.term
    rw [hT] at ht
    by_cases hx : (W (out.iterations.length - 1)).exit = some out.termination
    · have := (exit_iff hp _).mp hx
      rw [view_state hv _ (by omega)] at this
      cases htt : out.termination <;> rw [htt] at this <;> try (exact ⟨_, hlast, this⟩)
      · exact absurd this (by simp [ExitMeans])
      · exact absurd this (by simp [ExitMeans])
      · exact absurd this (by simp [ExitMeans])
    · -- the callback ended it
      unfold finish at ht
      split at ht
      · exact absurd ht.symm hx
      · rename_i cb hcb
        dsimp only at ht
        split at ht
        · rename_i t0 ht0
          exact absurd (by rw [ht0]; exact ht.symm) hx
        · split_ifs at ht with hcb'
          have htt : out.termination = .userCallback := by injection ht
          rw [htt]
          have hcalls := view_calls hv (out.iterations.length - 1) (by omega)
          rw [hcb] at hcalls
          simp only [reduceCtorEq, if_false] at hcalls
          rw [hcalls] at hcb'
          have hne' : out.iterations ≠ [] := by
            intro hnil; rw [hnil] at hpos; exact absurd hpos (by simp)
          refine ⟨cb, hcb, hne', ?_⟩
          have happ : out.iterations.take (out.iterations.length - 1)
              ++ [(W (out.iterations.length - 1)).info] = out.iterations := by
            conv_rhs => rw [← List.dropLast_append_getLast? _ hlast]
            rw [List.dropLast_eq_take]
          rw [happ] at hcb'
          simpa using hcb'
  · rw [h1]
    rcases stepDirection_cases hdir with ⟨_, _, _, _, _, _, _, hr, _⟩ | ⟨s, s', t, hs, _, hns, hr, _⟩
    · rw [hr] at hind; cases hind
    · have htt : t = .notPositiveDefinite := by
        cases t with
        | success => rw [hr] at hind; cases hind
        | notPositiveDefinite => rfl
      subst htt
      obtain ⟨hi, hq⟩ := (view_solver hv _ le_rfl).mp ⟨s, hs⟩
      refine ⟨h2, hi, hq, (S out.iterations.length).lambda, qp, (S out.iterations.length).obj.qp, pre, s, s', ?_, hns⟩
      rw [hv.vars]
      exact hlin

/-- **C46** (completeness). No iteration but the last meets an exit condition, and when the last one does, that is
the reported state, whatever the user callback answers. -/
theorem C46_exits_are_taken (env : Env n D α) (prm : NLSParams α) (x0 : Fin n → α) (o o' : env.Obj)
    (out : NLSOutputs α) (calls : List (NLSIteration α)) (h : solve env prm x0 o = .ok (o', out, calls))
    (k : Nat) (it : NLSIteration α) (hit : out.iterations[k]? = some it) (t : NLSTermination)
    (ht : ExitMeans prm (stateBefore out.iterations k) it t) :
    k + 1 = out.iterations.length ∧ out.termination = t := by
  obtain ⟨S, T, W, hv⟩ := solve_view h
  obtain ⟨hk, rfl, hp⟩ := view_info hv hit
  rw [← view_state hv k (by omega)] at ht
  have hx := (exit_iff hp t).mpr ht
  have hT : T k = some t := by
    rw [hp.term, hx]
    unfold finish
    split <;> rfl
  have hlast : k + 1 = out.iterations.length := by
    by_contra hne
    have := hv.cont k (by omega)
    rw [hT] at this; cases this
  refine ⟨hlast, ?_⟩
  rcases hv.stop with ⟨_, _, h3, _⟩ | ⟨_, _, h2, _⟩ | ⟨_, _, h3, _⟩
  · have := h3 k hk; rw [hT] at this; cases this
  · rw [show out.iterations.length - 1 = k by omega, hT] at h2
    exact (Option.some.inj h2).symm
  · have := h3 k hk; rw [hT] at this; cases this

/-- The exits of C46 occur: small derivative, iteration limit, callback, damping limit, small error. -/
example : (∃ o' out calls, solve (DemoNLS.env1 DemoNLS.sqrt2 none) (DemoNLS.prm 10) (fun _ => ⟨5⟩)
      (DemoNLS.obj1 DemoNLS.sqrt2 none) = .ok (o', out, calls) ∧ out.termination = .satisfiedFirstOrderTol) ∧
    (∃ o' out calls, solve (DemoNLS.env1 DemoNLS.cubic none) (DemoNLS.prm 4) (fun _ => ⟨1 / 10⟩)
      (DemoNLS.obj1 DemoNLS.cubic none) = .ok (o', out, calls) ∧ out.termination = .maxIterations) ∧
    (∃ o' out calls, solve (DemoNLS.env1 DemoNLS.sqrt2 (some fun l => l.length < 2)) (DemoNLS.prm 10) (fun _ => ⟨5⟩)
      (DemoNLS.obj1 DemoNLS.sqrt2 (some fun l => l.length < 2)) = .ok (o', out, calls) ∧
      out.termination = .userCallback) ∧
    (∃ o' out calls, solve (DemoNLS.env1 DemoNLS.wrongSign none)
      { DemoNLS.prm 10 with lineSearchStrategy := .armijoBacktrack } (fun _ => ⟨5⟩)
      (DemoNLS.obj1 DemoNLS.wrongSign none) = .ok (o', out, calls) ∧ out.termination = .maxLambda) := by
  refine ⟨?_, ?_, ?_, ?_⟩
  · obtain ⟨o', out, calls, h, h1, _⟩ := DemoNLS.summary_run' DemoNLS.run_sqrt2
    exact ⟨o', out, calls, h, h1⟩
  · obtain ⟨o', out, calls, h, h1, _⟩ := DemoNLS.summary_run' DemoNLS.run_cubic
    exact ⟨o', out, calls, h, h1⟩
  · obtain ⟨o', out, calls, h, h1, _⟩ := DemoNLS.summary_run' DemoNLS.run_callback
    exact ⟨o', out, calls, h, h1⟩
  · obtain ⟨o', out, calls, h, h1, _⟩ := DemoNLS.summary_run DemoNLS.run_maxLambda
    exact ⟨o', out, calls, h, h1⟩

/-! ## C47 -/

/-- **C47**. Logged iterations are numbered `0, 1, 2, ...` and at most `max_iterations`; the callback, if any, is
called exactly once per logged iteration, in order, with that iteration. -/
theorem C47_numbering_and_callback (env : Env n D α) (prm : NLSParams α) (x0 : Fin n → α) (o o' : env.Obj)
    (out : NLSOutputs α) (calls : List (NLSIteration α)) (h : solve env prm x0 o = .ok (o', out, calls)) :
    (∀ (k : Nat) it, out.iterations[k]? = some it → it.iteration = (k : Int)) ∧
    (out.iterations.length : Int) ≤ prm.maxIterations ∧
    calls = (if env.callback = none then [] else out.iterations) := by
  obtain ⟨S, T, W, hv⟩ := solve_view h
  refine ⟨?_, hv.le, ?_⟩
  · intro k it hit
    obtain ⟨hk, rfl, hp⟩ := view_info hv hit
    exact hp.iiter
  · rw [hv.calls, view_calls hv _ le_rfl, List.take_length]

/-- **C47** (verdicts). The callback answered `true` for every iteration but the last one. When it answers `false`
for the last one and the solver has no reason of its own to stop, the reported state is `USER_CALLBACK`; without a
callback that state is never reported. -/
theorem C47_verdict (env : Env n D α) (prm : NLSParams α) (x0 : Fin n → α) (o o' : env.Obj)
    (out : NLSOutputs α) (calls : List (NLSIteration α)) (h : solve env prm x0 o = .ok (o', out, calls)) :
    (∀ cb, env.callback = some cb → ∀ k, k + 1 < out.iterations.length → cb (out.iterations.take (k + 1)) = true) ∧
    (∀ cb, env.callback = some cb → out.iterations ≠ [] → cb out.iterations = false →
      (∀ it, out.iterations.getLast? = some it →
        ∀ t, ¬ ExitMeans prm (stateBefore out.iterations (out.iterations.length - 1)) it t) →
      out.termination = .userCallback) ∧
    (env.callback = none → out.termination ≠ .userCallback) := by
  obtain ⟨S, T, W, hv⟩ := solve_view h
  have hcall : ∀ cb, env.callback = some cb → ∀ k (hk : k < out.iterations.length),
      T k = match (W k).exit with
        | some t => some t
        | none => if cb (out.iterations.take (k + 1)) then none else some .userCallback := by
    intro cb hcb k hk
    rw [(hv.pass k hk).term]
    have hc := view_calls hv k (by omega)
    rw [hcb] at hc
    simp only [reduceCtorEq, if_false] at hc
    unfold finish
    rw [hcb]
    dsimp only
    rw [hc, List.take_add_one, hv.log k hk]
    cases (W k).exit <;> rfl
  refine ⟨?_, ?_, ?_⟩
  · intro cb hcb k hk
    have h1 := hv.cont k hk
    rw [hcall cb hcb k (by omega)] at h1
    cases hx : (W k).exit with
    | some t => rw [hx] at h1; cases h1
    | none =>
      rw [hx] at h1
      simp only at h1
      by_contra hn
      rw [if_neg hn] at h1; cases h1
  · intro cb hcb hne hfalse hno
    have hpos : 0 < out.iterations.length := List.length_pos_iff.mpr hne
    have hk : out.iterations.length - 1 < out.iterations.length := by omega
    have hp := hv.pass _ hk
    have h1 := hcall cb hcb _ hk
    rw [show out.iterations.length - 1 + 1 = out.iterations.length by omega, List.take_length, hfalse] at h1
    have hx : (W (out.iterations.length - 1)).exit = none := by
      cases hx : (W (out.iterations.length - 1)).exit with
      | none => rfl
      | some t =>
        exfalso
        refine hno _ (by rw [List.getLast?_eq_getElem?]; exact hv.log _ hk) t ?_
        rw [← view_state hv _ (by omega)]
        exact (exit_iff hp t).mp hx
    rw [hx] at h1
    simp only [Bool.false_eq_true, if_false] at h1
    rcases hv.stop with ⟨_, _, h3, _⟩ | ⟨_, _, h2, _⟩ | ⟨_, _, h3, _⟩
    · rw [h3 _ hk] at h1; cases h1
    · rw [h1] at h2; exact (Option.some.inj h2).symm
    · rw [h3 _ hk] at h1; cases h1
  · intro hcb ht
    have := C46_termination env prm x0 o o' out calls h
    rw [ht] at this
    obtain ⟨cb, hcb', _⟩ := this
    rw [hcb] at hcb'; cases hcb'

/-! ## C54 -/

/-- QP iterations an entry counts for. -/
def qpCount (it : NLSIteration α) : Nat :=
  match it.qpOutputs with
  | .interiorPoint q => q.iterations.length
  | .nullSpace _ => 1

omit [Scalar α] in
theorem foldl_count (f : NLSIteration α → Nat) : ∀ (l : List (NLSIteration α)) (a : Nat),
    l.foldl (fun t it => t + f it) a = a + (l.map f).sum := by
  intro l
  induction l with
  | nil => intro a; simp
  | cons b l ih => intro a; simp [ih, Nat.add_assoc]

omit [Scalar α] in
/-- **C54**. The counters are sums over the log (hence additive over concatenated logs), and the failed line
searches are the entries that are neither `SUCCESS` nor `FIRST_ORDER_SATISFIED`, so never more than the entries. -/
theorem C54_counters (out : NLSOutputs α) :
    out.numQPIterations = (out.iterations.map qpCount).sum ∧
    out.numLineSearchSteps = (out.iterations.map fun it => it.lineSearchSteps.length).sum ∧
    out.numFailedLineSearches = (out.iterations.filter fun it =>
      !(it.stepResult = .success ∨ it.stepResult = .firstOrderSatisfied : Bool)).length ∧
    out.numFailedLineSearches ≤ out.iterations.length := by
  have h3 : out.numFailedLineSearches = (out.iterations.filter fun it =>
      !(it.stepResult = .success ∨ it.stepResult = .firstOrderSatisfied : Bool)).length := by
    unfold NLSOutputs.numFailedLineSearches
    rw [foldl_count, Nat.zero_add]
    induction out.iterations with
    | nil => rfl
    | cons it l ih =>
      rw [List.map_cons, List.sum_cons, ih]
      cases hr : it.stepResult <;> simp [hr, Nat.add_comm]
  refine ⟨?_, ?_, h3, ?_⟩
  · unfold NLSOutputs.numQPIterations
    rw [← Nat.zero_add (List.sum _), ← foldl_count]
    congr 1
    funext total it
    unfold qpCount
    cases it.qpOutputs <;> rfl
  · unfold NLSOutputs.numLineSearchSteps
    rw [foldl_count, Nat.zero_add]
  · rw [h3]; exact List.length_filter_le _ _

omit [Scalar α] in
/-- **C54** (additivity). -/
theorem C54_additive (t : NLSTermination) (a b : List (NLSIteration α)) :
    (NLSOutputs.mk t (a ++ b)).numQPIterations
      = (NLSOutputs.mk t a).numQPIterations + (NLSOutputs.mk t b).numQPIterations ∧
    (NLSOutputs.mk t (a ++ b)).numLineSearchSteps
      = (NLSOutputs.mk t a).numLineSearchSteps + (NLSOutputs.mk t b).numLineSearchSteps ∧
    (NLSOutputs.mk t (a ++ b)).numFailedLineSearches
      = (NLSOutputs.mk t a).numFailedLineSearches + (NLSOutputs.mk t b).numFailedLineSearches := by
  refine ⟨?_, ?_, ?_⟩
  · rw [(C54_counters _).1, (C54_counters _).1, (C54_counters _).1]; simp
  · rw [(C54_counters _).2.1, (C54_counters _).2.1, (C54_counters _).2.1]; simp
  · rw [(C54_counters _).2.2.1, (C54_counters _).2.2.1, (C54_counters _).2.2.1]; simp

/-- **C54** (logs of a solve). For the log of a solve the totals are bounded by the parameters. -/
theorem C54_bounds (env : Env n D α) (prm : NLSParams α) (x0 : Fin n → α) (o o' : env.Obj)
    (out : NLSOutputs α) (calls : List (NLSIteration α)) (h : solve env prm x0 o = .ok (o', out, calls)) :
    (out.numLineSearchSteps : Int) ≤ prm.maxIterations * (prm.maxLineSearchIterations + 1) ∧
    (out.iterations.length ≤ out.numQPIterations ∧
      (out.numQPIterations : Int) ≤ prm.maxIterations * prm.maxQPIterations) := by
  obtain ⟨S, T, W, hv⟩ := solve_view h
  have hls := hv.prmOk.maxLineSearchIterations
  have hqp := hv.prmOk.maxQPIterations
  have key : ∀ (c : Int) (f : NLSIteration α → Nat) (l : List (NLSIteration α)), (∀ it ∈ l, (f it : Int) ≤ c) →
      (((l.map f).sum : Nat) : Int) ≤ l.length * c := by
    intro c f l
    induction l with
    | nil => intro _; simp
    | cons a l ih =>
      intro hl
      have h1 := hl a (by simp)
      have h2 := ih fun it hit => hl it (by simp [hit])
      simp only [List.map_cons, List.sum_cons, List.length_cons]
      push_cast at h2 ⊢
      rw [add_mul]
      omega
  have key' : ∀ (f : NLSIteration α → Nat) (l : List (NLSIteration α)), (∀ it ∈ l, 1 ≤ f it) →
      l.length ≤ (l.map f).sum := by
    intro f l
    induction l with
    | nil => intro _; simp
    | cons a l ih =>
      intro hl
      have h1 := hl a (by simp)
      have h2 := ih fun it hit => hl it (by simp [hit])
      simp only [List.map_cons, List.sum_cons, List.length_cons]
      omega
  have hq : ∀ it ∈ out.iterations, 1 ≤ qpCount it ∧ (qpCount it : Int) ≤ prm.maxQPIterations := by
    intro it hit
    obtain ⟨k, hk⟩ := List.mem_iff_getElem?.mp hit
    obtain ⟨_, rfl, hp⟩ := view_info hv hk
    obtain ⟨sol, hd, _⟩ := hp.dir
    unfold qpCount
    rw [hp.iout]
    rcases stepDirection_cases hd with ⟨hcon, s, s', q, _, _, h1, h2, h3⟩ | ⟨s, s', t, _, _, h1, h2, h3⟩
    · rw [h2]
      obtain ⟨h4, h5, _⟩ := C13_iteration_count _ _ _ _ _ h1
      exact ⟨h4, h5⟩
    · rw [h2]
      exact ⟨le_rfl, by simpa using hqp⟩
  refine ⟨?_, ?_, ?_⟩
  · rw [(C54_counters out).2.1]
    refine le_trans (key (prm.maxLineSearchIterations + 1) _ _ ?_)
      (mul_le_mul_of_nonneg_right hv.le (by omega))
    intro it hit
    obtain ⟨k, hk⟩ := List.mem_iff_getElem?.mp hit
    obtain ⟨_, rfl, hp⟩ := view_info hv hk
    obtain ⟨_, hout, _⟩ := lsLoop_start _ _ _ _ _ _ _ _ _ _ _ _ hp.ls
    have := hout.facts.len
    rw [hp.isteps]; omega
  · rw [(C54_counters out).1]
    exact key' _ _ fun it hit => (hq it hit).1
  · rw [(C54_counters out).1]
    exact le_trans (key prm.maxQPIterations _ _ fun it hit => (hq it hit).2)
      (mul_le_mul_of_nonneg_right hv.le (by omega))

end MiniOpt.Props
