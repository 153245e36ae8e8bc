import Verif.Model.SolveTrace
import Verif.Spec.SolveTraceSpec
import Verif.Props.ScopedTrace
import Verif.Props.Exceptions
import Verif.Lemmas.DemoF64

/-!
# C93: the trace of a solve is determined by its log
-/

set_option autoImplicit false

namespace MiniOpt.Props

open MiniOpt.Spec MiniOpt.Trace MiniOpt.NLS

variable {α : Type} [Scalar α] {n D : Nat}

theorem leaf_records (name : String) : Records (.scope name.toList .skip) [name.toList] .normal := by
  simpa using Records.scope (name := name.toList) Records.skip

theorem lsProg_records (env : Env n D α) (prm : NLSParams α) (x : Fin n → α) (dx : Fin D → α) (pre : Errors α)
    (d : DirectionalDerivatives α) (pen : α) : ∀ (fuel iter : Nat) (a : α) (steps : List (LineSearchStep α)) (cand : Fin n → α),
    (∀ res st c, lsLoop env prm x dx pre d pen fuel iter a steps cand = .ok (res, st, c) →
      ∃ k, st.length = steps.length + k ∧
        Records (lsProg env prm x dx pre d pen fuel iter a steps) (List.replicate k "EvaluateNonlinearErrors".toList) .normal) ∧
    (∀ e st c, lsLoop env prm x dx pre d pen fuel iter a steps cand = .error (e, st, c) →
      ∃ k, st.length = steps.length + k ∧
        Records (lsProg env prm x dx pre d pen fuel iter a steps) (List.replicate k "EvaluateNonlinearErrors".toList) .thrown) := by
  intro fuel
  induction fuel with
  | zero =>
    intro iter a steps cand
    refine ⟨fun res st c h => ?_, fun e st c h => ?_⟩
    · unfold lsLoop at h; cases h; exact ⟨0, rfl, .skip⟩
    · unfold lsLoop at h; cases h
  | succ fuel ih =>
    intro iter a steps cand
    unfold lsLoop lsProg
    cases h1 : nextAlpha prm.lineSearchStrategy prm.armijoSearchTau iter pre d pen a steps with
    | error e => exact ⟨fun _ _ _ h => (by cases h), fun _ _ _ h => by cases h; exact ⟨0, rfl, .throw⟩⟩
    | ok q =>
    cases q with
    | none => exact ⟨fun _ _ _ h => by cases h; exact ⟨0, rfl, .skip⟩, fun _ _ _ h => by cases h⟩
    | some a' =>
    cases h2 : retract env x dx a' with
    | error e =>
      simp only [h2]
      exact ⟨fun _ _ _ h => (by cases h), fun _ _ _ h => by cases h; exact ⟨0, rfl, .throw⟩⟩
    | ok c' =>
    cases h3 : evalErrors env.p c' with
    | error e =>
      simp only [h2, h3]
      exact ⟨fun _ _ _ h => (by cases h), fun _ _ _ h => by cases h; exact ⟨0, rfl, .scopeStop (by simp) .throw⟩⟩
    | ok es =>
    simp only [h2, h3]
    have one : ∀ {q : Prog} {k : Nat} {e : Ending}, Records q (List.replicate k "EvaluateNonlinearErrors".toList) e →
        Records (.seq (.scope "EvaluateNonlinearErrors".toList .skip) q)
          (List.replicate (k + 1) "EvaluateNonlinearErrors".toList) e := by
      intro q k e hq
      rw [List.replicate_succ]
      exact Records.seq (leaf_records _) hq
    have stop : ∀ (r : StepResult), (∀ res st c,
        (Except.ok (r, steps ++ [⟨a', es⟩], c') : Except (Fault × List (LineSearchStep α) × (Fin n → α))
          (StepResult × List (LineSearchStep α) × (Fin n → α))) = .ok (res, st, c) →
        ∃ k, st.length = steps.length + k ∧
          Records (.seq (.scope "EvaluateNonlinearErrors".toList .skip) .skip)
            (List.replicate k "EvaluateNonlinearErrors".toList) .normal) := by
      intro r res st c h
      cases h
      exact ⟨1, by simp, one (k := 0) .skip⟩
    split_ifs
    · exact ⟨stop _, fun _ _ _ h => by cases h⟩
    · exact ⟨stop _, fun _ _ _ h => by cases h⟩
    · exact ⟨stop _, fun _ _ _ h => by cases h⟩
    · exact ⟨stop _, fun _ _ _ h => by cases h⟩
    · obtain ⟨i1, i2⟩ := ih (iter + 1) a' (steps ++ [⟨a', es⟩]) c'
      refine ⟨fun res st c h => ?_, fun e st c h => ?_⟩
      · obtain ⟨k, hk, hr⟩ := i1 res st c h
        exact ⟨k + 1, by rw [hk]; simp; omega, one hr⟩
      · obtain ⟨k, hk, hr⟩ := i2 e st c h
        exact ⟨k + 1, by rw [hk]; simp; omega, one hr⟩

theorem selectProg_ok {env : Env n D α} {prm : NLSParams α} {pre : Errors α} {d : DirectionalDerivatives α} {pen : α}
    {o o2 : env.Obj} {res : StepResult} (h : selectStepSize env prm pre d pen o = .ok (o2, res)) :
    Records (selectProg env prm pre d pen o)
      (List.replicate o2.steps.length "EvaluateNonlinearErrors".toList ++ ["SelectStepSize".toList]) .normal := by
  obtain ⟨h1, h2, h3, -⟩ := selectStepSize_ok h
  obtain ⟨k, hk, hr⟩ := (lsProg_records env prm o.vars o.dx pre d pen _ 0 1 [] o.cand).1 _ _ _ h3
  unfold selectProg
  rw [if_neg (not_not.mpr h1), if_neg h2, show o2.steps.length = k by simpa using hk]
  exact .scope hr

theorem solve_not_eval (k : Nat) : "Solve".toList ∉ List.replicate k "EvaluateNonlinearErrors".toList :=
  fun h => absurd (List.eq_of_mem_replicate h) (by decide +kernel)

theorem selectProg_error {env : Env n D α} {prm : NLSParams α} {pre : Errors α} {d : DirectionalDerivatives α} {pen : α}
    {o : env.Obj} {e : Fault × env.Obj} (h : selectStepSize env prm pre d pen o = .error e) :
    ∃ k, Records (selectProg env prm pre d pen o) (List.replicate k "EvaluateNonlinearErrors".toList) .thrown := by
  unfold selectStepSize at h
  unfold selectProg
  split_ifs at h ⊢
  · exact ⟨0, .scopeStop (by simp) .throw⟩
  · cases hl : lsLoop env prm o.vars o.dx pre d pen (prm.maxLineSearchIterations + 1).toNat 0 1 [] o.cand with
    | ok q => rw [hl] at h; cases h
    | error q =>
      obtain ⟨k, -, hr⟩ := (lsProg_records env prm o.vars o.dx pre d pen _ 0 1 [] o.cand).2 _ _ _ hl
      exact ⟨k, .scopeStop (by simp) hr⟩
  · exact ⟨0, .scopeStop (by simp) .throw⟩

omit [Scalar α] in
theorem finish_not_indefinite {cb : Option (List (NLSIteration α) → Bool)} {info : NLSIteration α} {calls : List (NLSIteration α)}
    {ex : Option NLSTermination} (h : ex ≠ some .qpIndefinite) : (finish cb info ex calls).2 ≠ some .qpIndefinite := by
  unfold finish
  cases cb with
  | none => exact h
  | some f =>
    cases ex with
    | some t => exact h
    | none => dsimp only; split_ifs <;> simp

theorem updateLambda_not_indefinite {env : Env n D α} {prm : NLSParams α} {res : StepResult} {pre : Errors α}
    {pen lambda lambda' : α} {o o3 : env.Obj} {exit : Option NLSTermination}
    (h : updateLambda env prm res pre pen lambda o = .ok (o3, lambda', exit)) :
    exit ≠ some .qpIndefinite ∧ o3.steps = o.steps := by
  unfold updateLambda at h
  cases res
  all_goals dsimp only at h
  · split at h
    · cases h
    · cases h
      refine ⟨?_, rfl⟩
      split_ifs <;> simp
  all_goals cases h
  all_goals refine ⟨?_, rfl⟩
  all_goals simp

theorem bodyProg_records (env : Env n D α) (prm : NLSParams α) (iter : Nat) (s : Loop env) :
    (∀ e, body env prm iter s = .error e → ∃ names, InterruptedScopes names ∧ Records (bodyProg env prm iter s) names .thrown) ∧
    (∀ s' t, body env prm iter s = .ok (s', t) →
      (t = some .qpIndefinite ∧ s'.log = s.log ∧ Records (bodyProg env prm iter s)
        ["LinearizeAndFillQP".toList, "ComputeStepDirection".toList] .normal) ∨
      (t ≠ some .qpIndefinite ∧ ∃ it, s'.log = s.log ++ [it] ∧ Records (bodyProg env prm iter s) (iterationScopes it) .normal)) := by
  cases h1 : linearize env.p s.obj.vars s.lambda s.obj.qp with
  | error e =>
    refine ⟨fun _ _ => ⟨[], .inl rfl, ?_⟩, fun s' t h => ?_⟩
    · unfold bodyProg; rw [h1]; exact .scopeStop (by simp) .throw
    · unfold body at h; rw [h1] at h; cases h
  | ok q =>
  obtain ⟨qp, pre⟩ := q
  cases h2 : stepDirection env prm ({ s.obj with qp := qp } : env.Obj) with
  | error e =>
    refine ⟨fun _ _ => ⟨["LinearizeAndFillQP".toList], .inr (.inl rfl), ?_⟩, fun s' t h => ?_⟩
    · unfold bodyProg; rw [h1]; simp only; rw [h2]
      exact .seq (leaf_records _) (.scopeStop (by simp) .throw)
    · unfold body at h; rw [h1] at h; simp only at h; rw [h2] at h; cases h
  | ok q =>
  obtain ⟨o1, out⟩ := q
  by_cases hind : wasIndefinite out = true
  · have hb : body env prm iter s = .ok ({ s with obj := o1 }, some .qpIndefinite) := by
      unfold body; rw [h1]; simp only; rw [h2]; simp only; rw [if_pos hind]
    rw [hb]
    refine ⟨fun _ h => (by cases h), fun s' t h => ?_⟩
    cases h
    refine .inl ⟨rfl, rfl, ?_⟩
    unfold bodyProg; rw [h1]; simp only; rw [h2]; simp only; rw [if_pos hind]
    exact .seq (leaf_records _) (.seq (b := []) (leaf_records "ComputeStepDirection") .skip)
  have hp : ∀ {names : List (List Char)} {e : Ending}, Records (.seq (selectProg env prm pre (costDerivative o1.qp o1.dx)
        (raisePenalty env.p prm o1.qp o1.dx out s.penalty) o1)
        (match body env prm iter s with | .error _ => .throw | .ok _ => .skip)) names e →
      Records (bodyProg env prm iter s) (["LinearizeAndFillQP".toList] ++ (["ComputeStepDirection".toList] ++
        (["ComputeQPCostDerivative".toList] ++ names))) e := by
    intro names e hr
    unfold bodyProg; rw [h1]; simp only; rw [h2]; simp only; rw [if_neg hind]
    exact .seq (leaf_records _) (.seq (leaf_records _) (.seq (leaf_records _) hr))
  cases h3 : selectStepSize env prm pre (costDerivative o1.qp o1.dx)
      (raisePenalty env.p prm o1.qp o1.dx out s.penalty) o1 with
  | error e =>
    refine ⟨fun _ _ => ?_, fun s' t h => ?_⟩
    · obtain ⟨m, hr⟩ := selectProg_error h3
      exact ⟨_, .inr (.inr ⟨m, .inl rfl⟩), hp (.seqStop (by simp) hr)⟩
    · unfold body at h; rw [h1] at h; simp only at h; rw [h2] at h; simp only at h; rw [if_neg hind, h3] at h; cases h
  | ok q =>
  obtain ⟨o2, res⟩ := q
  have hsel := selectProg_ok h3
  refine ⟨fun e he => ?_, fun s' t ht => .inr ?_⟩
  · refine ⟨_, .inr (.inr ⟨o2.steps.length, .inr ?_⟩), hp (.seq hsel (by rw [he]; exact .throw))⟩
    generalize String.toList = T
    simp
  · cases h4 : updateLambda env prm res pre (raisePenalty env.p prm o1.qp o1.dx out s.penalty) s.lambda o2 with
    | error e =>
      unfold body at ht; rw [h1] at ht; simp only at ht; rw [h2] at ht; simp only at ht; rw [if_neg hind, h3] at ht
      simp only at ht; rw [h4] at ht; cases ht
    | ok q =>
    obtain ⟨o3, lam, ex⟩ := q
    obtain ⟨hex, hst⟩ := updateLambda_not_indefinite h4
    have hb := body_eq (iter := iter) h1 h2 hind h3 h4
    have hrec : Records (.seq (selectProg env prm pre (costDerivative o1.qp o1.dx)
        (raisePenalty env.p prm o1.qp o1.dx out s.penalty) o1)
        (match body env prm iter s with | .error _ => .throw | .ok _ => .skip))
        ((List.replicate o2.steps.length "EvaluateNonlinearErrors".toList ++ ["SelectStepSize".toList]) ++ []) .normal :=
      .seq hsel (by rw [ht]; exact .skip)
    have hfull := hp hrec
    rw [ht] at hb
    split_ifs at hb
    cases hb
    refine ⟨finish_not_indefinite hex, _, rfl, ?_⟩
    have he : iterationScopes (entry env prm iter s.lambda s.penalty pre out o1 o3 res) =
        ["LinearizeAndFillQP".toList] ++ (["ComputeStepDirection".toList] ++
        (["ComputeQPCostDerivative".toList] ++ ((List.replicate o2.steps.length "EvaluateNonlinearErrors".toList ++
          ["SelectStepSize".toList]) ++ []))) := by
      unfold iterationScopes entry
      rw [← hst]
      generalize String.toList = T
      simp
    rw [he]
    exact hfull

theorem loopProg_records (env : Env n D α) (prm : NLSParams α) : ∀ (fuel iter : Nat) (s : Loop env),
    (∀ e, loop env prm fuel iter s = .error e →
      ∃ (s1 : Loop env) (its : List (NLSIteration α)) (last : List (List Char)),
        loop env prm its.length iter s = .ok (s1, .maxIterations) ∧ s1.log = s.log ++ its ∧ InterruptedScopes last ∧
        Records (loopProg env prm fuel iter s) (its.flatMap iterationScopes ++ last) .thrown) ∧
    (∀ s' t, loop env prm fuel iter s = .ok (s', t) → ∃ its, s'.log = s.log ++ its ∧
      Records (loopProg env prm fuel iter s) (its.flatMap iterationScopes ++
        (if t = .qpIndefinite then ["LinearizeAndFillQP".toList, "ComputeStepDirection".toList] else [])) .normal) := by
  intro fuel
  induction fuel with
  | zero =>
    intro iter s
    unfold loop loopProg
    exact ⟨fun _ h => (by cases h), fun _ _ h => by cases h; exact ⟨[], by simp, .skip⟩⟩
  | succ fuel ih =>
    intro iter s
    obtain ⟨b1, b2⟩ := bodyProg_records env prm iter s
    unfold loop loopProg
    cases hb : body env prm iter s with
    | error e =>
      obtain ⟨names, hn, hr⟩ := b1 e hb
      exact ⟨fun _ _ => ⟨s, [], names, rfl, by simp, hn, .seqStop (by simp) hr⟩, fun _ _ h => by cases h⟩
    | ok q =>
    obtain ⟨s1, t1⟩ := q
    cases t1 with
    | some t1 =>
      refine ⟨fun _ h => (by cases h), fun s' t h => ?_⟩
      cases h
      rcases b2 s1 (some t1) hb with ⟨ht, hl, hr⟩ | ⟨ht, it, hl, hr⟩
      · cases ht
        exact ⟨[], by simpa using hl, by simpa using Records.seq hr .skip⟩
      · refine ⟨[it], hl, ?_⟩
        rw [if_neg (fun h => ht (by rw [h]))]
        simpa using Records.seq hr .skip
    | none =>
      rcases b2 s1 none hb with ⟨ht, -, -⟩ | ⟨-, it, hl, hr⟩
      · cases ht
      obtain ⟨i1, i2⟩ := ih (iter + 1) s1
      refine ⟨fun e h => ?_, fun s' t h => ?_⟩
      · obtain ⟨s2, its, last, e1, e2, hn, hr'⟩ := i1 e h
        refine ⟨s2, it :: its, last, ?_, by rw [e2, hl]; simp, hn, ?_⟩
        · rw [List.length_cons]
          simp only [hb]
          exact e1
        · rw [List.flatMap_cons, List.append_assoc]
          exact .seq hr hr'
      · obtain ⟨its, hl', hr'⟩ := i2 s' t h
        refine ⟨it :: its, by rw [hl', hl]; simp, ?_⟩
        rw [List.flatMap_cons, List.append_assoc]
        exact .seq hr hr'

/-- **C93**. If a solve returns, the scopes it records on its thread are determined by the outputs it returns: per logged
iteration one linearisation, one QP, one derivative, one evaluation per line search step and one step size selection, in this
order; for a solve that ended because a QP was indefinite one more linearisation and QP; and at the end the solve. -/
theorem C93_trace_of_log (env : Env n D α) (prm : NLSParams α) (x0 : Fin n → α) (o o' : env.Obj) (out : NLSOutputs α)
    (calls : List (NLSIteration α)) (now : Nat → Int) (pid tid i : Nat)
    (h : solve env prm x0 o = .ok (o', out, calls)) :
    (exec now pid tid (solveProg env prm x0 o) 0 i).ending = .normal ∧
    (exec now pid tid (solveProg env prm x0 o) 0 i).events.map (·.name) = solveScopes out := by
  suffices hr : Records (solveProg env prm x0 o) (solveScopes out) .normal from
    ((C92_recorded_scopes now pid tid _ i _ _).mpr hr).symm
  unfold solve at h
  unfold solveProg solveScopes
  cases hc : NLS.checkParams prm with
  | error e => rw [hc] at h; cases h
  | ok u =>
  rw [hc] at h
  simp only at h
  cases hl : loop env prm prm.maxIterations.toNat 0 (start env prm x0 o) with
  | error e => rw [hl] at h; cases h
  | ok q =>
  rw [hl] at h
  cases h
  obtain ⟨its, h1, h2⟩ := (loopProg_records env prm _ 0 _).2 q.1 q.2 hl
  have h1' : q.1.log = its := by rw [h1]; rfl
  rw [h1']
  exact .scope h2

omit [Scalar α] in
theorem solve_not_iteration (it : NLSIteration α) : "Solve".toList ∉ iterationScopes it := by
  have a : "Solve".toList ≠ "LinearizeAndFillQP".toList := by decide +kernel
  have b : "Solve".toList ≠ "ComputeStepDirection".toList := by decide +kernel
  have c : "Solve".toList ≠ "ComputeQPCostDerivative".toList := by decide +kernel
  have d : "Solve".toList ≠ "SelectStepSize".toList := by decide +kernel
  have e := solve_not_eval it.lineSearchSteps.length
  unfold iterationScopes
  generalize String.toList = T at *
  simp only [List.mem_append, List.mem_cons, List.not_mem_nil, or_false]
  intro hm
  rcases hm with ((hm | hm | hm) | hm) | hm
  · exact a hm
  · exact b hm
  · exact c hm
  · exact e hm
  · exact d hm

theorem solve_not_interrupted {names : List (List Char)} (h : InterruptedScopes names) : "Solve".toList ∉ names := by
  have a : "Solve".toList ≠ "LinearizeAndFillQP".toList := by decide +kernel
  have b : "Solve".toList ≠ "ComputeStepDirection".toList := by decide +kernel
  have c : "Solve".toList ≠ "ComputeQPCostDerivative".toList := by decide +kernel
  have d : "Solve".toList ≠ "SelectStepSize".toList := by decide +kernel
  have e := solve_not_eval
  unfold InterruptedScopes at h
  generalize String.toList = T at *
  rcases h with rfl | rfl | ⟨k, rfl | rfl⟩ <;>
    simp only [List.mem_append, List.mem_cons, List.not_mem_nil, or_false, not_or, not_false_eq_true]
  · exact a
  · exact ⟨⟨a, b, c⟩, e k⟩
  · exact ⟨⟨⟨a, b, c⟩, e k⟩, d⟩

/-- **C93**, exceptions: if a solve ends with an exception, so does the traced code, and no solve is recorded. What is recorded is
determined by the iterations completed before, which are those logged by a solve that is allowed only so many, up to the number of
evaluations in the interrupted iteration. -/
theorem C93_trace_of_exception (env : Env n D α) (prm : NLSParams α) (x0 : Fin n → α) (o : env.Obj) (e : Fault × env.Obj)
    (now : Nat → Int) (pid tid i : Nat) (h : solve env prm x0 o = .error e) :
    (exec now pid tid (solveProg env prm x0 o) 0 i).ending = .thrown ∧
    "Solve".toList ∉ (exec now pid tid (solveProg env prm x0 o) 0 i).events.map (·.name) ∧
    (¬ NLSParamsValid prm → (exec now pid tid (solveProg env prm x0 o) 0 i).events = []) ∧
    (NLSParamsValid prm → ∃ (its : List (NLSIteration α)) (last : List (List Char)) (o' : env.Obj) (calls : List (NLSIteration α)),
      solve env { prm with maxIterations := (its.length : Int) } x0 o = .ok (o', ⟨.maxIterations, its⟩, calls) ∧
      InterruptedScopes last ∧
      (exec now pid tid (solveProg env prm x0 o) 0 i).events.map (·.name) = its.flatMap iterationScopes ++ last) := by
  cases hc : NLS.checkParams prm with
  | error e =>
    have hr : Records (solveProg env prm x0 o) [] .thrown := by
      unfold solveProg
      rw [hc]
      exact .scopeStop (by simp) .throw
    obtain ⟨h1, h2⟩ := (C92_recorded_scopes now pid tid _ i _ _).mpr hr
    refine ⟨h2, by rw [h1]; simp, fun _ => List.map_eq_nil_iff.mp h1, fun hv => ?_⟩
    rw [(checkParams_iff prm).mpr hv] at hc
    cases hc
  | ok u =>
  have hv := (checkParams_iff prm).mp hc
  unfold solve at h
  rw [hc] at h
  simp only at h
  cases hl : loop env prm prm.maxIterations.toNat 0 (start env prm x0 o) with
  | ok q => rw [hl] at h; cases h
  | error q =>
  obtain ⟨s1, its, last, e1, e2, hn, hr⟩ := (loopProg_records env prm _ 0 _).1 q hl
  have hr' : Records (solveProg env prm x0 o) (its.flatMap iterationScopes ++ last) .thrown := by
    unfold solveProg
    rw [hc]
    exact .scopeStop (by simp) hr
  obtain ⟨h1, h2⟩ := (C92_recorded_scopes now pid tid _ i _ _).mpr hr'
  refine ⟨h2, ?_, fun h => absurd hv h, fun _ => ⟨its, last, s1.obj, s1.calls, ?_, hn, h1⟩⟩
  · rw [h1]
    intro hm
    rcases List.mem_append.mp hm with hm | hm
    · obtain ⟨it, -, hit⟩ := List.mem_flatMap.mp hm
      exact solve_not_iteration it hit
    · exact solve_not_interrupted hn hm
  · unfold solve
    rw [checkParams_cap hc]
    simp only
    rw [Int.toNat_natCast, loop_cap]
    have hs : start env { prm with maxIterations := (its.length : Int) } x0 o = start env prm x0 o := rfl
    have hlog : s1.log = its := by rw [e2]; rfl
    rw [hs, e1]
    simp only [hlog]

/-- **C93**, how many events a solve adds: one, four per iteration, one per line search step, and two more if it ended
because a QP was indefinite. -/
theorem C93_event_count (env : Env n D α) (prm : NLSParams α) (x0 : Fin n → α) (o o' : env.Obj) (out : NLSOutputs α)
    (calls : List (NLSIteration α)) (now : Nat → Int) (pid tid i : Nat)
    (h : solve env prm x0 o = .ok (o', out, calls)) :
    (exec now pid tid (solveProg env prm x0 o) 0 i).events.length =
      1 + 4 * out.iterations.length + (out.iterations.map (·.lineSearchSteps.length)).sum +
        (if out.termination = .qpIndefinite then 2 else 0) := by
  have h2 := congrArg List.length (C93_trace_of_log env prm x0 o o' out calls now pid tid i h).2
  rw [List.length_map] at h2
  rw [h2]
  unfold solveScopes
  rw [List.length_append, List.length_append]
  have : (out.iterations.flatMap iterationScopes).length =
      4 * out.iterations.length + (out.iterations.map (·.lineSearchSteps.length)).sum := by
    induction out.iterations with
    | nil => rfl
    | cons it its ih =>
      rw [List.flatMap_cons, List.length_append, ih]
      unfold iterationScopes
      simp only [List.length_append, List.length_cons, List.length_nil, List.length_replicate, List.map_cons, List.sum_cons]
      omega
  rw [this]
  split_ifs <;> simp <;> omega

/-- Newton's method for the square root of two in binary64: five iterations, so at least 26 events, the last of which is the
solve. -/
example : ∃ out : NLSOutputs DemoF64.D64, out.iterations.length = 5 ∧
    ∀ now pid tid i, ((exec now pid tid (solveProg (DemoF64.env1 DemoF64.sqrt2) (DemoF64.prm 20) (fun _ => DemoF64.d 5)
      (DemoF64.obj1 DemoF64.sqrt2)) 0 i).events.map (·.name)) = solveScopes out := by
  obtain ⟨o', out, calls, h, -, hr⟩ := DemoF64.summary_run DemoF64.run_sqrt2
  refine ⟨out, by simpa using congrArg List.length hr, fun now pid tid i => ?_⟩
  exact (C93_trace_of_log _ _ _ _ _ _ _ now pid tid i h).2

/-- With invalid parameters nothing at all is recorded. -/
example (env : Env n D α) (prm : NLSParams α) (x0 : Fin n → α) (o : env.Obj) (h : prm.maxIterations = -1) :
    (exec (fun k => k) 1 1 (solveProg env prm x0 o) 0 0).events = [] := by
  have hc : NLS.checkParams prm = .error (.assertion "max_iterations >= 0") := by
    unfold NLS.checkParams; rw [if_pos (by rw [h]; decide)]
  unfold solveProg
  rw [hc]
  rfl

/-- A residual throws while it is linearized after some completed steps: the trace is that of the completed iterations followed by the
beginning of one. -/
example : ∃ e, solve (DemoNLS.env1 fragile none) (DemoNLS.prm 10) (fun _ => ⟨5⟩) (DemoNLS.obj1 fragile none) = .error e ∧
    ∃ (its : List (NLSIteration DemoNLS.Rt)) (last : List (List Char)), InterruptedScopes last ∧
      ∀ now pid tid i, (exec now pid tid (solveProg (DemoNLS.env1 fragile none) (DemoNLS.prm 10) (fun _ => ⟨5⟩)
        (DemoNLS.obj1 fragile none)) 0 i).events.map (·.name) = its.flatMap iterationScopes ++ last := by
  obtain ⟨s, hs⟩ := Option.isSome_iff_exists.mp run_throwing_callback.2
  obtain ⟨ob, h, -⟩ := leaves_run (run_throwing_residual.trans (by rw [hs]; rfl))
  have hv : NLSParamsValid (DemoNLS.prm 10) := by
    refine (checkParams_iff _).mp ?_
    have : (match NLS.checkParams (DemoNLS.prm 10) with | .ok _ => true | .error _ => false) = true := by decide +kernel
    split at this
    · rename_i u hu; exact hu
    · cases this
  obtain ⟨-, -, -, h4⟩ := C93_trace_of_exception _ _ _ _ _ (fun _ => 0) 0 0 0 h
  obtain ⟨its, last, o', calls, -, hl, he⟩ := h4 hv
  refine ⟨_, h, its, last, hl, fun now pid tid i => ?_⟩
  rw [← he]
  exact ((C92_recorded_scopes now pid tid _ i _ _).mpr ((C92_recorded_scopes (fun _ => 0) 0 0 _ 0 _ _).mp ⟨rfl, rfl⟩)).1

end MiniOpt.Props
