import Verif.Props.NLSReuse
import Verif.Props.NLSState

/-!
# C116: stopping a solve and going on with a second call
-/

set_option autoImplicit false

namespace MiniOpt.Props

open MiniOpt.Spec MiniOpt.NLS

variable {α : Type} [Scalar α] {n D : Nat}

/-- The parameters of the second call: another iteration limit, and initial values for damping and penalty. -/
def resumed (prm : NLSParams α) (limit : Int) (lam pen : α) : NLSParams α :=
  { prm with maxIterations := limit, lambdaInitial := lam, equalityPenaltyInitial := pen }

theorem lsLoop_resumed (env : Env n D α) (prm : NLSParams α) (m : Int) (lam p0 : α) (x : Fin n → α) (dx : Fin D → α)
    (pre : Errors α) (d : DirectionalDerivatives α) (pen : α) : ∀ (fuel iter : Nat) (a : α)
    (steps : List (LineSearchStep α)) (cand : Fin n → α),
    lsLoop env (resumed prm m lam p0) x dx pre d pen fuel iter a steps cand
      = lsLoop env prm x dx pre d pen fuel iter a steps cand := by
  intro fuel
  induction fuel with
  | zero => intros; rfl
  | succ fuel ih => intros; simp only [lsLoop, ih]; rfl

theorem body_resumed (env : Env n D α) (prm : NLSParams α) (m : Int) (lam p0 : α) (iter : Nat) (s : Loop env) :
    body env (resumed prm m lam p0) iter s = body env prm iter s := by
  unfold body selectStepSize
  simp only [lsLoop_resumed]
  rfl

theorem loop_resumed (env : Env n D α) (prm : NLSParams α) (m : Int) (lam p0 : α) : ∀ (fuel iter : Nat) (s : Loop env),
    loop env (resumed prm m lam p0) fuel iter s = loop env prm fuel iter s := by
  intro fuel
  induction fuel with
  | zero => intros; rfl
  | succ fuel ih => intros; simp only [loop, ih, body_resumed]

/-- A log entry with its number lowered by `k`. -/
def renumber (k : Nat) (it : NLSIteration α) : NLSIteration α := { it with iteration := it.iteration - k }

/-- Two loops in agreeing states with different numbering. -/
theorem loop_shift {env : Env n D α} (hcb : env.callback = none) (prm : NLSParams α) (k : Nat) : ∀ (fuel iter : Nat) (s s' : Loop env),
    Core s s' →
    (∃ e a a', loop env prm fuel (k + iter) s = .error (e, a) ∧ loop env prm fuel iter s' = .error (e, a') ∧ a.vars = a'.vars) ∨
    (∃ r r' t l, loop env prm fuel (k + iter) s = .ok (r, t) ∧ loop env prm fuel iter s' = .ok (r', t) ∧ Core r r' ∧
      r.log = s.log ++ l ∧ r'.log = s'.log ++ l.map (renumber k)) := by
  intro fuel
  induction fuel with
  | zero => intro iter s s' h; exact .inr ⟨s, s', _, [], rfl, rfl, h, by simp, by simp⟩
  | succ fuel ih =>
    intro iter s s' h
    simp only [loop]
    rcases body_sim prm h (k + iter) iter with ⟨e, a, a', e1, e2, hv⟩ | ⟨a, a', e1, e2, ha⟩ |
      ⟨a, a', lam, pen, info, ex, ha, _, e1, e2⟩
    · rw [e1, e2]; exact .inl ⟨_, _, _, rfl, rfl, hv⟩
    · rw [e1, e2]
      exact .inr ⟨_, _, _, [], rfl, rfl, ⟨ha, h.lambda, h.penalty⟩, by simp, by simp⟩
    · have hf : ∀ (i : NLSIteration α) c, callbackFails env i c = false := fun i c => by unfold callbackFails; rw [hcb]
      have hfin : ∀ (i : NLSIteration α) c, finish env.callback i ex c = (c, ex) := fun i c => by unfold finish; rw [hcb]
      rw [e1, e2]
      simp only [hf, hfin]
      rw [if_neg (by simp), if_neg (by simp)]
      cases ex with
      | some t =>
        refine .inr ⟨_, _, t, [{ info with iteration := k + iter }], rfl, rfl, ⟨ha, rfl, rfl⟩, rfl, ?_⟩
        simp [renumber]
      | none =>
        dsimp only
        rcases ih (iter + 1) ⟨a, lam, pen, s.log ++ [{ info with iteration := k + iter }], s.calls⟩
          ⟨a', lam, pen, s'.log ++ [{ info with iteration := iter }], s'.calls⟩ ⟨ha, rfl, rfl⟩ with
          ⟨e, b, b', h1, h2, h3⟩ | ⟨r, r', t, l, h1, h2, h3, h4, h5⟩
        · exact .inl ⟨e, b, b', h1, h2, h3⟩
        · refine .inr ⟨r, r', t, { info with iteration := k + iter } :: l, h1, h2, h3, ?_, ?_⟩
          · rw [h4]; simp
          · rw [h5]; simp [renumber]

theorem loop_skip {env : Env n D α} {prm : NLSParams α} (S : Nat → Loop env) (f : Nat) : ∀ k,
    (∀ j, j < k → body env prm j (S j) = .ok (S (j + 1), none)) → loop env prm (f + k) 0 (S 0) = loop env prm f k (S k) := by
  intro k h
  have key : ∀ m i, i + m = k → loop env prm (f + m) i (S i) = loop env prm f k (S k) := by
    intro m
    induction m with
    | zero => intro i hi; have : i = k := by omega
              subst this; rfl
    | succ m ih =>
      intro i hi
      rw [show f + (m + 1) = (f + m) + 1 by omega]
      simp only [loop]
      rw [h i (by omega)]
      exact ih (i + 1) (by omega)
  exact key k 0 (by omega)

/-- The penalty in force before log entry `k`. -/
def penaltyBefore (prm : NLSParams α) (its : List (NLSIteration α)) (k : Nat) : α :=
  if k = 0 then prm.equalityPenaltyInitial else ((its[k - 1]?).map (·.penalty)).getD prm.equalityPenaltyInitial

theorem view_penalty {env : Env n D α} {prm : NLSParams α} {x0 : Fin n → α} {o o' : env.Obj} {out : NLSOutputs α}
    {calls : List (NLSIteration α)} {S : Nat → Loop env} {T : Nat → Option NLSTermination}
    {W : Nat → PassData env} (hv : View env prm x0 o o' out calls S T W) (k : Nat) (hk : k ≤ out.iterations.length) :
    (S k).penalty = penaltyBefore prm out.iterations k := by
  unfold penaltyBefore
  cases k with
  | zero => rw [hv.start]; rfl
  | succ k =>
    have hp := hv.pass k (by omega)
    rw [if_neg (by omega), Nat.add_sub_cancel, hv.log k (by omega)]
    simp only [Option.map_some, Option.getD_some]
    rw [hp.ipenalty]

/-- A second call whose initial values are those of the state after `k` iterations starts in a state that agrees with it. -/
theorem view_core {env : Env n D α} {prm : NLSParams α} {x0 : Fin n → α} {o o' : env.Obj} {out : NLSOutputs α}
    {calls : List (NLSIteration α)} {S : Nat → Loop env} {T : Nat → Option NLSTermination}
    {W : Nat → PassData env} (hv : View env prm x0 o o' out calls S T W) (k : Nat) (hk : k ≤ out.iterations.length)
    (hst : stateBefore out.iterations k = .nominal) (prm' : NLSParams α) (hlam : (S k).lambda = prm'.lambdaInitial)
    (hpen : (S k).penalty = prm'.equalityPenaltyInitial) (x : Fin n → α) (hx : x = (S k).obj.vars) (ob : env.Obj) :
    Core (S k) (start env prm' x ob) := by
  refine ⟨⟨hx.symm, ?_, ?_⟩, hlam, hpen⟩
  · rw [view_state hv k hk, hst]; rfl
  · have h1 := view_solver hv k hk
    show SameKind (S k).obj.solver (chooseSolver env ob.solver)
    unfold chooseSolver
    by_cases hn : env.p.ineq = [] ∧ env.p.eqs ≠ []
    · rw [if_pos hn]
      obtain ⟨st, hst'⟩ := h1.mpr hn
      rw [hst']
      cases ob.solver <;> trivial
    · rw [if_neg hn]
      have h2 : ∃ st, (S k).obj.solver = .ip st := by
        cases hs : (S k).obj.solver with
        | ip st => exact ⟨st, rfl⟩
        | ns st => exact absurd (h1.mp ⟨st, hs⟩) hn
      obtain ⟨st, hst'⟩ := h2
      rw [hst']
      cases ob.solver <;> trivial

/-- **C116** (resuming). Let a call of `Solve` without callback return after more than `k` iterations. Take the variables it had
after `k` iterations, and let iteration `k` start in state `NOMINAL`. A second call, on any object of the problem, that starts
there with the `lambda` logged for iteration `k` as `lambda_initial`, with the penalty logged just before as
`equality_penalty_initial` and with the remaining number of iterations as limit, does exactly what the rest of the first call
did: it returns the same variables and termination state, and a log which is the rest of the log, numbered from zero. -/
theorem C116_resume (env : Env n D α) (hcb : env.callback = none) (prm : NLSParams α) (x0 : Fin n → α) (o o' : env.Obj)
    (out : NLSOutputs α) (calls : List (NLSIteration α)) (h : solve env prm x0 o = .ok (o', out, calls))
    (k : Nat) (it : NLSIteration α) (hit : out.iterations[k]? = some it) (hst : stateBefore out.iterations k = .nominal)
    (hvalid : NLSParamsValid (resumed prm (prm.maxIterations - k) it.lambda (penaltyBefore prm out.iterations k)))
    (a : env.Obj) (ha : After env prm x0 o k a) (ob : env.Obj) :
    ∃ ob', solve env (resumed prm (prm.maxIterations - k) it.lambda (penaltyBefore prm out.iterations k)) a.vars ob
        = .ok (ob', ⟨out.termination, (out.iterations.drop k).map (renumber k)⟩, []) ∧ ob'.vars = o'.vars := by
  obtain ⟨S, T, W, hv⟩ := solve_view h
  obtain ⟨hk, rfl, hp⟩ := view_info hv hit
  have hcap := hv.le
  obtain ⟨f, hf⟩ : ∃ f, prm.maxIterations.toNat = f + k := ⟨prm.maxIterations.toNat - k, by omega⟩
  have hskip := loop_skip (prm := prm) S f k fun j hj => by rw [hv.step j (by omega), hv.cont j (by omega)]
  have hc : NLS.checkParams prm = .ok () := (checkParams_iff prm).mpr hv.prmOk
  have hloop : ∃ s, loop env prm f k (S k) = .ok (s, out.termination) ∧ s.obj = o' ∧ s.log = out.iterations := by
    unfold solve at h
    rw [hc] at h
    dsimp only at h
    rw [← hv.start, hf, hskip] at h
    cases hl : loop env prm f k (S k) with
    | error e => rw [hl] at h; cases h
    | ok r =>
      obtain ⟨s, t⟩ := r
      rw [hl] at h
      cases h
      exact ⟨s, rfl, rfl, rfl⟩
  obtain ⟨s, hl, hobj, hlog⟩ := hloop
  have hav : a.vars = (S k).obj.vars := congrArg Obj.vars ((hv.after k (by omega) a).mp ha)
  have hcore : Core (S k) (start env (resumed prm (prm.maxIterations - k) (W k).info.lambda (penaltyBefore prm out.iterations k))
      a.vars ob) :=
    view_core hv k (by omega) hst _ hp.ilambda.symm (view_penalty hv k (by omega)) a.vars hav ob
  rcases loop_shift hcb prm k f 0 _ _ hcore with ⟨e, b, b', h1, -, -⟩ | ⟨r, r', t, l, h1, h2, h3, h4, h5⟩
  · rw [Nat.add_zero, hl] at h1; cases h1
  rw [Nat.add_zero, hl] at h1
  cases h1
  have hcalls : r'.calls = [] := by
    have hgen : ∀ (fuel iter : Nat) (s1 : Loop env) (r1 : Loop env × NLSTermination), s1.calls = [] →
        loop env prm fuel iter s1 = .ok r1 → r1.1.calls = [] := by
      intro fuel
      induction fuel with
      | zero => intro iter s1 r1 hs hr; cases hr; exact hs
      | succ fuel ih =>
        intro iter s1 r1 hs hr
        simp only [loop] at hr
        cases hb : body env prm iter s1 with
        | error e => rw [hb] at hr; cases hr
        | ok q =>
          obtain ⟨s2, t2⟩ := q
          have hs2 : s2.calls = [] := by
            rcases body_sim prm (s := s1) (s' := s1) ⟨⟨rfl, rfl, by cases s1.obj.solver <;> trivial⟩, rfl, rfl⟩ iter iter with
              ⟨e, a, a', e1, -, -⟩ | ⟨a, a', e1, -, -⟩ | ⟨a, a', lam, pen, info, ex, -, -, e1, -⟩
            · rw [e1] at hb; cases hb
            · rw [e1] at hb; cases hb; exact hs
            · rw [e1] at hb
              split_ifs at hb
              cases hb
              show (finish env.callback _ ex s1.calls).1 = []
              unfold finish; rw [hcb]; exact hs
          rw [hb] at hr
          cases t2 with
          | some t => cases hr; exact hs2
          | none => exact ih _ _ _ hs2 hr
    exact hgen _ _ _ _ rfl h2
  refine ⟨r'.obj, ?_, ?_⟩
  · unfold solve
    rw [(checkParams_iff _).mpr hvalid]
    dsimp only
    have hm : (resumed prm (prm.maxIterations - k) (W k).info.lambda (penaltyBefore prm out.iterations k)).maxIterations.toNat = f := by
      show (prm.maxIterations - k).toNat = f
      omega
    rw [hm, loop_resumed, h2]
    dsimp only
    rw [hcalls, h5]
    have hl' : l = out.iterations.drop k := by
      rw [← hlog, h4, hv.slog k (by omega), List.drop_append_of_le_length (by simp; omega)]
      simp
    rw [hl']
    rfl
  · rw [← h3.obj.vars, hobj]

/-- **C116** (the same parameters). If the damping has not changed (it starts iteration `k` with `lambda_initial`) and neither
has the penalty, going on with the same parameters and the rest of the iterations gives what one call would have given. -/
theorem C116_same_parameters (env : Env n D α) (hcb : env.callback = none) (prm : NLSParams α) (x0 : Fin n → α) (o o' : env.Obj)
    (out : NLSOutputs α) (calls : List (NLSIteration α)) (h : solve env prm x0 o = .ok (o', out, calls))
    (k : Nat) (it : NLSIteration α) (hit : out.iterations[k]? = some it) (hst : stateBefore out.iterations k = .nominal)
    (hlam : it.lambda = prm.lambdaInitial) (hpen : penaltyBefore prm out.iterations k = prm.equalityPenaltyInitial)
    (a : env.Obj) (ha : After env prm x0 o k a) (ob : env.Obj) :
    ∃ ob', solve env { prm with maxIterations := prm.maxIterations - k } a.vars ob
        = .ok (ob', ⟨out.termination, (out.iterations.drop k).map (renumber k)⟩, []) ∧ ob'.vars = o'.vars := by
  obtain ⟨S, T, W, hv⟩ := solve_view h
  have hk := lt_of_getElem? hit
  have hle := hv.le
  have e : resumed prm (prm.maxIterations - k) it.lambda (penaltyBefore prm out.iterations k)
      = { prm with maxIterations := prm.maxIterations - k } := by rw [hlam, hpen]; rfl
  have := C116_resume env hcb prm x0 o o' out calls h k it hit hst
    (by rw [e]; exact { hv.prmOk with maxIterations := by show (0 : Int) ≤ prm.maxIterations - k; omega }) a ha ob
  rwa [e] at this

/-- **C116** (solving again from a result). Let `Solve`, without callback, report `SATISFIED_FIRST_ORDER_TOL`, its last
iteration having started in state `NOMINAL` with `lambda_initial` and the initial penalty. Then calling it again from the
result, with the same parameters and on any object, reports the same after one iteration and leaves the variables as they are. -/
theorem C116_again (env : Env n D α) (hcb : env.callback = none) (prm : NLSParams α) (x0 : Fin n → α) (o o' : env.Obj)
    (out : NLSOutputs α) (calls : List (NLSIteration α)) (h : solve env prm x0 o = .ok (o', out, calls))
    (ht : out.termination = .satisfiedFirstOrderTol) (it : NLSIteration α) (hit : out.iterations.getLast? = some it)
    (hst : stateBefore out.iterations (out.iterations.length - 1) = .nominal) (hlam : it.lambda = prm.lambdaInitial)
    (hpen : penaltyBefore prm out.iterations (out.iterations.length - 1) = prm.equalityPenaltyInitial) (ob : env.Obj) :
    ∃ ob', solve env prm o'.vars ob = .ok (ob', ⟨.satisfiedFirstOrderTol, [{ it with iteration := 0 }]⟩, []) ∧
      ob'.vars = o'.vars := by
  obtain ⟨S, T, W, hv⟩ := solve_view h
  obtain ⟨k, hlen⟩ : ∃ k, out.iterations.length = k + 1 := by
    refine ⟨out.iterations.length - 1, ?_⟩
    have : out.iterations ≠ [] := fun hn => by rw [hn] at hit; simp at hit
    have := List.length_pos_iff.mpr this
    omega
  rw [hlen, Nat.add_sub_cancel] at hst hpen
  rw [List.getLast?_eq_getElem?, hlen, Nat.add_sub_cancel] at hit
  obtain ⟨hk, rfl, hp⟩ := view_info hv hit
  have hT : T k = some .satisfiedFirstOrderTol := by
    rcases hv.stop with ⟨h1, -⟩ | ⟨-, -, h3, -⟩ | ⟨h1, -⟩
    · rw [ht] at h1; cases h1
    · rw [hlen, Nat.add_sub_cancel, ht] at h3; exact h3
    · rw [ht] at h1; cases h1
  have hres : (W k).res = .firstOrderSatisfied := by
    have h1 := C46_termination env prm x0 o o' out calls h
    rw [ht] at h1
    obtain ⟨it', h2, h3⟩ := h1
    rw [List.getLast?_eq_getElem?, hlen, Nat.add_sub_cancel, hit] at h2
    cases h2
    have h4 := h3
    rw [← hp.ires]
    exact h4.1
  have hvars : o'.vars = (S k).obj.vars := by
    rw [hv.vars, hlen, hp.vars, hres, if_neg (by simp)]
  have hcore := view_core hv k (by omega) hst prm (hp.ilambda.symm.trans hlam) ((view_penalty hv k (by omega)).trans hpen)
    o'.vars hvars ob
  have hstep := hv.step k hk
  have hf : ∀ (i : NLSIteration α) c, callbackFails env i c = false := fun i c => by unfold callbackFails; rw [hcb]
  obtain ⟨m, hm⟩ : ∃ m, prm.maxIterations.toNat = m + 1 := ⟨prm.maxIterations.toNat - 1, by have := hv.le; omega⟩
  rcases body_sim prm hcore k 0 with ⟨e, a, a', e1, -, -⟩ | ⟨a, a', e1, -, -⟩ | ⟨a, a', lam, pen, info, ex, ha, _, e1, e2⟩
  · rw [e1] at hstep; cases hstep
  · rw [e1, hT] at hstep
    have := congrArg Prod.snd (Except.ok.inj hstep)
    dsimp only at this
    cases this
  rw [e1] at hstep
  have hfin : ∀ (i : NLSIteration α) c, finish env.callback i ex c = (c, ex) := fun i c => by unfold finish; rw [hcb]
  simp only [hf, hfin, hT] at hstep e2
  rw [if_neg (by simp)] at hstep e2
  have hS := congrArg Prod.fst (Except.ok.inj hstep)
  have hex : ex = some .satisfiedFirstOrderTol := congrArg Prod.snd (Except.ok.inj hstep)
  have hinfo : { info with iteration := k } = (W k).info := by
    have h1 := congrArg Loop.log hS
    have h2 : (S (k + 1)).log = (S k).log ++ [(W k).info] := hp.log
    dsimp only at h1
    rw [h2] at h1
    exact List.singleton_injective (List.append_cancel_left h1)
  refine ⟨a', ?_, ?_⟩
  · unfold solve
    rw [(checkParams_iff prm).mpr hv.prmOk, hm]
    dsimp only
    simp only [loop]
    rw [e2, hex]
    dsimp only
    rw [← hinfo]
    rfl
  · rw [← ha.vars]
    have h1 := congrArg (fun s : Loop env => s.obj.vars) hS
    dsimp only at h1
    rw [h1, hv.vars, hlen]

end MiniOpt.Props
