import Verif.Spec.StoppingSpec
import Verif.Lemmas.NLSView
import Verif.Lemmas.Derivative
import Verif.Props.NLSLog

/-!
# C132: the iteration limit, the exit tolerances and the largest damping only decide when to stop
-/

set_option autoImplicit false

namespace MiniOpt.Props

open MiniOpt MiniOpt.Spec MiniOpt.NLS

section any

variable {α : Type} [Scalar α] {n D : Nat}

theorem agree_direction {prm prm' : NLSParams α} (h : AgreeExceptStopping prm prm') (env : Env n D α) (o : env.Obj) :
    stepDirection env prm' o = stepDirection env prm o := by
  rw [h]; rfl

theorem agree_penalty {prm prm' : NLSParams α} (h : AgreeExceptStopping prm prm') (p : Problem D α) (q : QPData D p.M p.K α)
    (dx : Fin D → α) (out : QPResult α) (pen : α) : raisePenalty p prm' q dx out pen = raisePenalty p prm q dx out pen := by
  rw [h]; rfl

/-- The line search with another first-derivative tolerance: the same, unless one of them stops for that reason. -/
theorem agree_lsLoop {prm prm' : NLSParams α} (h : AgreeExceptStopping prm prm') (env : Env n D α) (x : Fin n → α) (dx : Fin D → α)
    (pre : Errors α) (d : DirectionalDerivatives α) (pen : α)
    (hd : d.lInfinity < prm'.absoluteFirstDerivativeTol → d.lInfinity < prm.absoluteFirstDerivativeTol) :
    ∀ (fuel iter : Nat) (a : α) (steps : List (LineSearchStep α)) (cand : Fin n → α)
      (r' : StepResult × List (LineSearchStep α) × (Fin n → α)),
    lsLoop env prm' x dx pre d pen fuel iter a steps cand = .ok r' →
    lsLoop env prm x dx pre d pen fuel iter a steps cand = .ok r' ∨
    (¬ d.lInfinity < prm'.absoluteFirstDerivativeTol ∧ d.lInfinity < prm.absoluteFirstDerivativeTol ∧
      ∃ steps' cand', lsLoop env prm x dx pre d pen fuel iter a steps cand = .ok (.firstOrderSatisfied, steps', cand')) := by
  have e1 : prm'.lineSearchStrategy = prm.lineSearchStrategy := by rw [h]
  have e2 : prm'.armijoSearchTau = prm.armijoSearchTau := by rw [h]
  intro fuel
  induction fuel with
  | zero => intro iter a steps cand r' hr; exact .inl hr
  | succ fuel ih =>
    intro iter a steps cand r' hr
    simp only [lsLoop, e1, e2] at hr ⊢
    cases hn : nextAlpha prm.lineSearchStrategy prm.armijoSearchTau iter pre d pen a steps with
    | error e => rw [hn] at hr; cases hr
    | ok v =>
      rw [hn] at hr
      cases v with
      | none => exact .inl hr
      | some a' =>
        dsimp only at hr ⊢
        cases hx : retract env x dx a' with
        | error e => rw [hx] at hr; cases hr
        | ok cand' =>
          rw [hx] at hr
          dsimp only at hr ⊢
          cases he : evalErrors env.p cand' with
          | error e => rw [he] at hr; cases hr
          | ok es =>
            rw [he] at hr
            dsimp only at hr ⊢
            by_cases hinv : es.containsInvalid
            · rw [if_pos hinv] at hr ⊢; exact .inl hr
            · rw [if_neg hinv] at hr ⊢
              by_cases hf : d.lInfinity < prm.absoluteFirstDerivativeTol
              · by_cases hf' : d.lInfinity < prm'.absoluteFirstDerivativeTol
                · rw [if_pos hf'] at hr; rw [if_pos hf]; exact .inl hr
                · rw [if_pos hf]; exact .inr ⟨hf', hf, _, _, rfl⟩
              · rw [if_neg fun hh => hf (hd hh)] at hr
                rw [if_neg hf]
                split_ifs at hr ⊢ with h1 h2
                · exact .inl hr
                · exact .inl hr
                · rcases ih _ _ _ _ _ hr with h3 | ⟨h3, h4, h5⟩
                  · exact .inl h3
                  · exact .inr ⟨h3, h4, h5⟩

/-- The reasons for which the five parameters make a run stop. -/
def EarlyReason (t : NLSTermination) : Prop :=
  t = .maxIterations ∨ t = .satisfiedAbsoluteTol ∨ t = .satisfiedRelativeTol ∨ t = .satisfiedFirstOrderTol ∨ t = .maxLambda

/-- The damping update with other parameters: the same object and damping. -/
theorem agree_lambda {prm prm' : NLSParams α} (h : AgreeExceptStopping prm prm') (env : Env n D α) (res : StepResult)
    (pre : Errors α) (pen lam : α) (o : env.Obj) (r' : env.Obj × α × Option NLSTermination)
    (hr : updateLambda env prm' res pre pen lam o = .ok r') :
    ∃ t, updateLambda env prm res pre pen lam o = .ok (r'.1, r'.2.1, t) ∧
      (∀ u, t = some u → EarlyReason u) ∧ (∀ u, r'.2.2 = some u → EarlyReason u) ∧
      (r'.2.2 = some .satisfiedFirstOrderTol → t = r'.2.2) ∧
      (res = .firstOrderSatisfied → r' = (o, lam, some .satisfiedFirstOrderTol)) ∧
      (r'.2.2 ≠ none → (∀ final, o.steps.getLast? = some final → (final.errors.lInfinity < prm'.absoluteExitTol →
          final.errors.lInfinity < prm.absoluteExitTol) ∧
          (pre.total pen * (1 - prm'.relativeExitTol) < final.errors.total pen →
            pre.total pen * (1 - prm.relativeExitTol) < final.errors.total pen)) →
        (∀ l : α, prm'.maxLambda < l → prm.maxLambda < l) → t ≠ none) := by
  have e1 : prm'.lambdaDecreaseOnRestore = prm.lambdaDecreaseOnRestore := by rw [h]
  have e2 : prm'.lambdaDecreaseOnSuccess = prm.lambdaDecreaseOnSuccess := by rw [h]
  have e3 : prm'.minLambda = prm.minLambda := by rw [h]
  have e4 : prm'.lambdaFailureInit = prm.lambdaFailureInit := by rw [h]
  unfold updateLambda at hr ⊢
  rw [e1, e2, e3, e4] at hr
  cases res with
  | success =>
    dsimp only at hr ⊢
    cases hs : o.steps.getLast? with
    | none => rw [hs] at hr; cases hr
    | some final =>
      rw [hs] at hr
      cases hr
      refine ⟨_, rfl, ?_, ?_, ?_, nofun, ?_⟩
      · intro u hu; unfold EarlyReason; split_ifs at hu <;> cases hu <;> simp
      · intro u hu; unfold EarlyReason; dsimp only at hu; split_ifs at hu <;> cases hu <;> simp
      · intro hu; dsimp only at hu; split_ifs at hu <;> cases hu
      · intro hne hle _ hcon
        obtain ⟨l1, l2⟩ := hle final rfl
        dsimp only at hne
        split_ifs at hcon with c1 c2
        split_ifs at hne with d1 d2
        · exact c1 (l1 d1)
        · exact c2 (l2 d2)
        · exact hne rfl
  | firstOrderSatisfied =>
    cases hr
    exact ⟨_, rfl, fun u hu => by cases hu; simp [EarlyReason], fun u hu => by cases hu; simp [EarlyReason], fun _ => rfl, fun _ => rfl,
      fun _ _ _ => by simp⟩
  | maxIterations =>
    cases hr
    refine ⟨_, rfl, ?_, ?_, ?_, nofun, ?_⟩
    · intro u hu; unfold EarlyReason; split_ifs at hu <;> cases hu <;> simp
    · intro u hu; unfold EarlyReason; dsimp only at hu; split_ifs at hu <;> cases hu <;> simp
    · intro hu; dsimp only at hu; split_ifs at hu <;> cases hu
    · intro hne _ hl hcon
      dsimp only at hne
      split_ifs at hcon with c1
      split_ifs at hne with d1
      · exact c1 (hl _ d1)
      · exact hne rfl
  | positiveDerivative =>
    cases hr
    refine ⟨_, rfl, ?_, ?_, ?_, nofun, ?_⟩
    · intro u hu; unfold EarlyReason; split_ifs at hu <;> cases hu <;> simp
    · intro u hu; unfold EarlyReason; dsimp only at hu; split_ifs at hu <;> cases hu <;> simp
    · intro hu; dsimp only at hu; split_ifs at hu <;> cases hu
    · intro hne _ hl hcon
      dsimp only at hne
      split_ifs at hcon with c1
      split_ifs at hne with d1
      · exact c1 (hl _ d1)
      · exact hne rfl
  | failureNonFiniteCost =>
    cases hr
    exact ⟨_, rfl, nofun, nofun, nofun, nofun, fun hne => absurd rfl hne⟩
  | failureInvalidAlpha =>
    cases hr
    exact ⟨_, rfl, nofun, nofun, nofun, nofun, fun hne => absurd rfl hne⟩

theorem finish_some (cb : Option (List (NLSIteration α) → Bool)) (info : NLSIteration α) (t : NLSTermination)
    (calls : List (NLSIteration α)) : (finish cb info (some t) calls).2 = some t := by
  unfold finish; cases cb <;> rfl

theorem finish_calls (cb : Option (List (NLSIteration α) → Bool)) (info : NLSIteration α) (t t' : Option NLSTermination)
    (calls : List (NLSIteration α)) : (finish cb info t calls).1 = (finish cb info t' calls).1 := by
  unfold finish; cases cb <;> cases t <;> cases t' <;> rfl

/-- One iteration with two parameter sets, from the same state. -/
theorem agree_body {prm prm' : NLSParams α} (h : AgreeExceptStopping prm prm') (env : Env n D α)
    (hd : ∀ v : α, v < prm'.absoluteFirstDerivativeTol → v < prm.absoluteFirstDerivativeTol)
    (hcb : prm'.absoluteFirstDerivativeTol = prm.absoluteFirstDerivativeTol ∨ env.callback = none ∨ ∀ l, env.callbackThrows l = false)
    (iter : Nat) (s : Loop env) (r' : Loop env × Option NLSTermination) (hb : body env prm' iter s = .ok r') :
    ∃ s1 t, body env prm iter s = .ok (s1, t) ∧
      ((s1 = r'.1 ∧ (t = r'.2 ∨ (∃ u, t = some u ∧ EarlyReason u) ∨ ∃ u, r'.2 = some u ∧ EarlyReason u) ∧
        ((∀ v : α, v < prm'.absoluteExitTol → v < prm.absoluteExitTol) →
          (∀ qp pre, linearize env.p s.obj.vars s.lambda s.obj.qp = .ok (qp, pre) → ∀ (pen v : α), 0 < pen →
            pre.total pen * (1 - prm'.relativeExitTol) < v → pre.total pen * (1 - prm.relativeExitTol) < v) →
          (∀ l : α, prm'.maxLambda < l → prm.maxLambda < l) → t = r'.2 ∨ ∃ u, t = some u ∧ EarlyReason u)) ∨
      (t = some .satisfiedFirstOrderTol ∧ s1.obj.vars = s.obj.vars ∧
        prm'.absoluteFirstDerivativeTol ≠ prm.absoluteFirstDerivativeTol)) := by
  have e1 : prm'.maxLineSearchIterations = prm.maxLineSearchIterations := by rw [h]
  have e2 : prm'.logQPEigenvalues = prm.logQPEigenvalues := by rw [h]
  unfold body at hb ⊢
  cases hl : linearize env.p s.obj.vars s.lambda s.obj.qp with
  | error e => rw [hl] at hb; cases hb
  | ok q =>
    obtain ⟨qp, pre⟩ := q
    rw [hl] at hb
    dsimp only at hb ⊢
    rw [agree_direction h] at hb
    cases hsd : stepDirection env prm { s.obj with qp := qp } with
    | error e => rw [hsd] at hb; cases hb
    | ok q =>
      obtain ⟨o1, out⟩ := q
      have hfr : o1.vars = s.obj.vars := by rw [stepDirection_frame hsd]
      rw [hsd] at hb
      dsimp only at hb ⊢
      by_cases hw : wasIndefinite out = true
      · rw [if_pos hw] at hb ⊢
        cases hb
        exact ⟨_, _, rfl, .inl ⟨rfl, .inl rfl, fun _ _ _ => .inl rfl⟩⟩
      · rw [if_neg hw] at hb ⊢
        rw [agree_penalty h, e2] at hb
        generalize raisePenalty env.p prm o1.qp o1.dx out s.penalty = pen at hb ⊢
        unfold selectStepSize at hb ⊢
        rw [e1] at hb
        by_cases hpen : 0 < pen
        swap
        · rw [if_pos hpen] at hb; cases hb
        rw [if_neg (not_not.mpr hpen)] at hb ⊢
        by_cases hinv : pre.containsInvalid
        · rw [if_pos hinv] at hb; cases hb
        rw [if_neg hinv] at hb ⊢
        cases hls' : lsLoop env prm' o1.vars o1.dx pre (costDerivative o1.qp o1.dx) pen (prm.maxLineSearchIterations + 1).toNat 0 1 []
            o1.cand with
        | error e => rw [hls'] at hb; cases hb
        | ok v =>
          obtain ⟨res, steps, cand⟩ := v
          rw [hls'] at hb
          dsimp only at hb
          cases hu' : updateLambda env prm' res pre pen s.lambda { o1 with steps := steps, cand := cand } with
          | error e => rw [hu'] at hb; cases hb
          | ok w =>
            rw [hu'] at hb
            rcases agree_lsLoop h env o1.vars o1.dx pre _ pen (hd _) _ _ _ _ _ _ hls' with hls | ⟨c1, c2, steps2, cand2, hls⟩
            · obtain ⟨t, hu, t1, t2, -, -, t5⟩ := agree_lambda h env res pre pen s.lambda _ w hu'
              obtain ⟨o3, lam', exit'⟩ := w
              rw [hls]
              dsimp only at hu ⊢ hb
              rw [hu]
              dsimp only
              generalize (if prm.logQPEigenvalues = true then some (eigenStats (env.eigenvalues o3.qp.G)) else none) = ev at hb ⊢
              split_ifs at hb ⊢ with hc
              cases hb
              refine ⟨_, _, rfl, .inl ⟨?_, ?_, ?_⟩⟩
              · rw [finish_calls _ _ t exit']
              · cases t with
                | some u => exact .inr (.inl ⟨u, finish_some _ _ _ _, t1 u rfl⟩)
                | none =>
                  cases exit' with
                  | none => exact .inl rfl
                  | some u => exact .inr (.inr ⟨u, finish_some _ _ _ _, t2 u rfl⟩)
              · intro m1 m2 m3
                cases t with
                | some u => exact .inr ⟨u, finish_some _ _ _ _, t1 u rfl⟩
                | none =>
                  cases exit' with
                  | none => exact .inl rfl
                  | some u =>
                    exact absurd rfl (t5 (by simp) (fun final _ => ⟨m1 _, m2 qp pre rfl pen _ hpen⟩) m3)
            · have hne : prm'.absoluteFirstDerivativeTol ≠ prm.absoluteFirstDerivativeTol := fun e => c1 (e ▸ c2)
              have hq : ∀ info, callbackFails env info s.calls = false := by
                intro info
                unfold callbackFails
                rcases hcb with h0 | h0 | h0
                · exact absurd h0 hne
                · rw [h0]
                · cases env.callback with
                  | none => rfl
                  | some _ => exact h0 _
              rw [hls]
              have e : ∀ ob : env.Obj, updateLambda env prm .firstOrderSatisfied pre pen s.lambda ob
                = .ok (ob, s.lambda, some .satisfiedFirstOrderTol) := fun _ => rfl
              dsimp only
              rw [e]
              dsimp only
              rw [hq]
              refine ⟨_, _, rfl, .inr ⟨finish_some _ _ _ _, hfr, hne⟩⟩

/-- The log after `k` more iterations, from the states of a run. -/
theorem view_same_entry {env : Env n D α} {prm prm' : NLSParams α} {x0 : Fin n → α} {o o1 o1' oo : env.Obj} {out out' : NLSOutputs α}
    {calls calls' : List (NLSIteration α)} {S S' : Nat → Loop env} {T T' : Nat → Option NLSTermination} {W W' : Nat → PassData env}
    (v : View env prm x0 o o1 out calls S T W) (v' : View env prm' x0 oo o1' out' calls' S' T' W') {k : Nat}
    (hk : k < out.iterations.length) (hk' : k < out'.iterations.length) (h : S (k + 1) = S' (k + 1)) :
    out.iterations[k]? = out'.iterations[k]? := by
  have h1 := v.slog (k + 1) (by omega)
  have h2 := v'.slog (k + 1) (by omega)
  rw [h, h2] at h1
  have e1 : (out.iterations.take (k + 1))[k]? = out.iterations[k]? := by rw [List.getElem?_take]; simp
  have e2 : (out'.iterations.take (k + 1))[k]? = out'.iterations[k]? := by rw [List.getElem?_take]; simp
  rw [← e1, ← e2, h1]

/-- **C132** (any arithmetic). Two calls on the same object from the same start, with parameters that agree except for the iteration
limit, `absolute_exit_tol`, `relative_exit_tol` and `max_lambda`, both returning: they log the same iterations and show the callback the
same values as long as both run, and the variables after each common iteration are the same - so the shorter log is a prefix of the
longer, and if they are equally long the final variables are the same. -/
theorem C132_prefix (env : Env n D α) (prm prm' : NLSParams α) (h : AgreeExceptStopping prm prm')
    (hd : prm'.absoluteFirstDerivativeTol = prm.absoluteFirstDerivativeTol) (x0 : Fin n → α) (o o1 o1' : env.Obj)
    (out out' : NLSOutputs α) (calls calls' : List (NLSIteration α)) (hs : solve env prm x0 o = .ok (o1, out, calls))
    (hs' : solve env prm' x0 o = .ok (o1', out', calls')) :
    (∀ k, k < out.iterations.length → k < out'.iterations.length → out.iterations[k]? = out'.iterations[k]?) ∧
    (∀ k, k ≤ out.iterations.length → k ≤ out'.iterations.length → ∀ a, After env prm x0 o k a ↔ After env prm' x0 o k a) ∧
    (out.iterations.length = out'.iterations.length → o1.vars = o1'.vars ∧ calls = calls') := by
  obtain ⟨S, T, W, v⟩ := solve_view hs
  obtain ⟨S', T', W', v'⟩ := solve_view hs'
  have key : ∀ k, k ≤ out.iterations.length → k ≤ out'.iterations.length → S k = S' k := by
    intro k
    induction k with
    | zero =>
      intro _ _
      rw [v.start, v'.start, h]
      rfl
    | succ k ih =>
      intro hk hk'
      have e := ih (by omega) (by omega)
      have b := v.step k (by omega)
      have b' := v'.step k (by omega)
      rw [← e] at b'
      obtain ⟨s1, t, hb, hc⟩ := agree_body h env (fun _ hv => hd ▸ hv) (.inl hd) k (S k) _ b'
      rw [b] at hb
      cases hb
      rcases hc with ⟨q, -⟩ | ⟨-, -, q⟩
      · exact q
      · exact absurd hd q
  refine ⟨fun k hk hk' => view_same_entry v v' hk hk' (key (k + 1) (by omega) (by omega)), fun k hk hk' a => ?_, fun hlen => ?_⟩
  · rw [v.after k hk, v'.after k hk', key k hk hk']
  · have e := key out.iterations.length le_rfl hlen.le
    rw [v.vars, v'.vars, v.calls, v'.calls, ← hlen, e]
    exact ⟨rfl, rfl⟩

end any

section real

variable {n D : Nat}

theorem stricter_loop {env : Env n D ℝ} (hp : WellPosed env.p n) {prm prm' : NLSParams ℝ} (h : Stricter prm prm')
    (hcb : prm'.absoluteFirstDerivativeTol = prm.absoluteFirstDerivativeTol ∨ env.callback = none ∨ ∀ l, env.callbackThrows l = false) :
    (∀ (iter : Nat) (s : Loop env) (r' : Loop env × Option NLSTermination), body env prm' iter s = .ok r' →
      ∃ s1 t, body env prm iter s = .ok (s1, t) ∧ ((s1 = r'.1 ∧ (t = r'.2 ∨ ∃ u, t = some u ∧ EarlyReason u)) ∨
        (t = some .satisfiedFirstOrderTol ∧ s1.obj.vars = s.obj.vars))) ∧
    ∀ (f f' iter : Nat) (s : Loop env) (r' : Loop env × NLSTermination), f ≤ f' → loop env prm' f' iter s = .ok r' →
      ∃ r, loop env prm f iter s = .ok r := by
  have hbody : ∀ (iter : Nat) (s : Loop env) (r' : Loop env × Option NLSTermination), body env prm' iter s = .ok r' →
      ∃ s1 t, body env prm iter s = .ok (s1, t) ∧ ((s1 = r'.1 ∧ (t = r'.2 ∨ ∃ u, t = some u ∧ EarlyReason u)) ∨
        (t = some .satisfiedFirstOrderTol ∧ s1.obj.vars = s.obj.vars)) := by
    intro iter s r' hb
    obtain ⟨s1, t, hb1, hc⟩ := agree_body h.agree env (fun v hv => lt_of_lt_of_le hv h.absoluteFirstDerivativeTol) hcb iter s r' hb
    refine ⟨s1, t, hb1, ?_⟩
    rcases hc with ⟨q1, -, q2⟩ | ⟨q1, q2, -⟩
    · refine .inl ⟨q1, q2 (fun v hv => lt_of_lt_of_le hv h.absoluteExitTol) (fun qp pre hl pen v hpen hv => ?_)
        (fun l hl => lt_of_le_of_lt h.maxLambda hl)⟩
      refine lt_of_le_of_lt ?_ hv
      obtain ⟨f1, -⟩ := linearize_facts hp hl
      have hpos : 0 ≤ pre.total pen := by
        rw [f1]
        exact add_nonneg (costAt_nonneg _ _) (mul_nonneg hpen.le (violationAt_nonneg _ _))
      have := h.relativeExitTol
      exact mul_le_mul_of_nonneg_left (by linarith) hpos
    · exact .inr ⟨q1, q2⟩
  refine ⟨hbody, ?_⟩
  intro f
  induction f with
  | zero => intro f' iter s r' _ _; exact ⟨_, rfl⟩
  | succ f ih =>
    intro f' iter s r' hf hl
    obtain ⟨f', rfl⟩ : ∃ g, f' = g + 1 := ⟨f' - 1, by omega⟩
    unfold loop at hl ⊢
    cases hb : body env prm' iter s with
    | error e => rw [hb] at hl; cases hl
    | ok r2 =>
      obtain ⟨s1, t, hb1, hc⟩ := hbody iter s r2 hb
      obtain ⟨s2, t2⟩ := r2
      rw [hb] at hl
      rw [hb1]
      cases t with
      | some u => exact ⟨_, rfl⟩
      | none =>
        rcases hc with ⟨q1, q2 | ⟨u, q2, -⟩⟩ | ⟨q1, -⟩
        · dsimp only at q1 q2 hl ⊢
          subst q1 q2
          exact ih f' _ _ _ (by omega) hl
        · cases q2
        · cases q1

theorem indef_body {α : Type} [Scalar α] {env : Env n D α} {prm : NLSParams α} {k : Nat} {s : Loop env} {qp : QPData D env.p.M env.p.K α}
    {pre : Errors α} {o1 : env.Obj} {res : QPResult α} (hl : linearize env.p s.obj.vars s.lambda s.obj.qp = .ok (qp, pre))
    (hd : stepDirection env prm { s.obj with qp := qp } = .ok (o1, res)) (hw : wasIndefinite res = true) :
    body env prm k s = .ok ({ s with obj := o1 }, some .qpIndefinite) := by
  unfold body
  rw [hl]
  dsimp only
  rw [hd]
  dsimp only
  rw [if_pos hw]

theorem view_not_indef {α : Type} [Scalar α] {env : Env n D α} {prm : NLSParams α} {x0 : Fin n → α} {o o1 : env.Obj} {out : NLSOutputs α}
    {calls : List (NLSIteration α)} {S : Nat → Loop env} {T : Nat → Option NLSTermination} {W : Nat → PassData env}
    (v : View env prm x0 o o1 out calls S T W) {k : Nat} (hk : k < out.iterations.length) : T k ≠ some .qpIndefinite := by
  intro h
  by_cases hlt : k + 1 < out.iterations.length
  · rw [v.cont k hlt] at h; cases h
  · have e : out.iterations.length - 1 = k := by omega
    rcases v.stop with ⟨_, _, hn, _⟩ | ⟨ht, _, hT, _⟩ | ⟨_, _, hn, _⟩
    · rw [hn k hk] at h; cases h
    · rw [e, h] at hT
      exact ht (Option.some.inj hT).symm
    · rw [hn k hk] at h; cases h

theorem looser_core (env : Env n D ℝ) (hp : WellPosed env.p n) (prm prm' : NLSParams ℝ) (h : Stricter prm prm')
    (hv : NLSParamsValid prm)
    (hcb : prm'.absoluteFirstDerivativeTol = prm.absoluteFirstDerivativeTol ∨ env.callback = none ∨ ∀ l, env.callbackThrows l = false)
    (x0 : Fin n → ℝ) (o o1' : env.Obj) (out' : NLSOutputs ℝ) (calls' : List (NLSIteration ℝ))
    (hs' : solve env prm' x0 o = .ok (o1', out', calls')) :
    ∃ o1 out calls, solve env prm x0 o = .ok (o1, out, calls) ∧ out.iterations.length ≤ out'.iterations.length ∧
      (∀ k, k < out.iterations.length → (k + 1 < out.iterations.length ∨ out.termination ≠ .satisfiedFirstOrderTol) →
        out.iterations[k]? = out'.iterations[k]?) ∧
      (∀ a, After env prm' x0 o (if out.termination = .satisfiedFirstOrderTol then out.iterations.length - 1
        else out.iterations.length) a → o1.vars = a.vars) ∧
      (out.termination = .maxIterations ∨ out.termination = .satisfiedAbsoluteTol ∨ out.termination = .satisfiedRelativeTol ∨
        out.termination = .satisfiedFirstOrderTol ∨ out.termination = .maxLambda ∨
        (out.termination = out'.termination ∧ out.iterations = out'.iterations ∧ calls = calls' ∧ o1.vars = o1'.vars)) := by
  obtain ⟨hbody, hloop⟩ := stricter_loop hp h hcb
  have hstart : start env prm' x0 o = start env prm x0 o := by rw [h.agree]; rfl
  obtain ⟨o1, out, calls, hs⟩ : ∃ o1 out calls, solve env prm x0 o = .ok (o1, out, calls) := by
    unfold solve at hs' ⊢
    rw [(checkParams_iff prm).mpr hv]
    dsimp only
    cases hc' : NLS.checkParams prm' with
    | error e => rw [hc'] at hs'; cases hs'
    | ok u =>
      rw [hc', hstart] at hs'
      dsimp only at hs'
      cases hl' : loop env prm' prm'.maxIterations.toNat 0 (start env prm x0 o) with
      | error e => rw [hl'] at hs'; cases hs'
      | ok r' =>
        obtain ⟨⟨s1, t⟩, hr⟩ := hloop _ _ _ _ _ (Int.toNat_le_toNat h.maxIterations) hl'
        rw [hr]
        exact ⟨_, _, _, rfl⟩
  refine ⟨o1, out, calls, hs, ?_⟩
  have hfo := C46_termination env prm x0 o o1 out calls hs
  obtain ⟨S, T, W, v⟩ := solve_view hs
  obtain ⟨S', T', W', v'⟩ := solve_view hs'
  have hmax := h.maxIterations
  have key : ∀ k, k ≤ out.iterations.length → k ≤ out'.iterations.length →
      (k < out.iterations.length ∨ out.termination ≠ .satisfiedFirstOrderTol) → S k = S' k := by
    intro k
    induction k with
    | zero => intro _ _ _; rw [v.start, v'.start, hstart]
    | succ k ih =>
      intro hk hk' hf
      have e := ih (by omega) (by omega) (.inl (by omega))
      have b := v.step k (by omega)
      have b' := v'.step k (by omega)
      rw [← e] at b'
      obtain ⟨s1, t, hb, hc⟩ := hbody k (S k) _ b'
      rw [b] at hb
      cases hb
      rcases hc with ⟨q, -⟩ | ⟨q, -⟩
      · exact q
      · exfalso
        rcases hf with hf | hf
        · rw [v.cont k hf] at q; cases q
        · by_cases hlt : k + 1 < out.iterations.length
          · rw [v.cont k hlt] at q; cases q
          · have e2 : out.iterations.length - 1 = k := by omega
            rcases v.stop with ⟨_, _, hn, _⟩ | ⟨_, _, hT, _⟩ | ⟨_, _, hn, _⟩
            · rw [hn k (by omega)] at q; cases q
            · rw [e2, q] at hT; exact hf (Option.some.inj hT).symm
            · rw [hn k (by omega)] at q; cases q
  have exits : ∀ k, k < out.iterations.length → k < out'.iterations.length →
      (T k = T' k ∧ S (k + 1) = S' (k + 1)) ∨ ∃ u, T k = some u ∧ EarlyReason u := by
    intro k hk hk'
    have b := v.step k hk
    have b' := v'.step k hk'
    rw [← key k hk.le hk'.le (.inl hk)] at b'
    obtain ⟨s1, t, hb, hc⟩ := hbody k (S k) _ b'
    rw [b] at hb
    cases hb
    rcases hc with ⟨q, q1 | q1⟩ | ⟨q, -⟩
    · exact .inl ⟨q1, q⟩
    · exact .inr q1
    · exact .inr ⟨_, q, by simp [EarlyReason]⟩
  have hlen : out.iterations.length ≤ out'.iterations.length := by
    by_contra hlt
    have hlt : out'.iterations.length < out.iterations.length := not_le.mp hlt
    have hle := v.le
    rcases v'.stop with ⟨_, e1, _⟩ | ⟨_, hpos, e1, _⟩ | ⟨_, _, _, qp, pre, ob1, res, hl, hd, hw, _⟩
    · omega
    · have hc := v.cont (out'.iterations.length - 1) (by omega)
      rcases exits (out'.iterations.length - 1) (by omega) (by omega) with ⟨q, -⟩ | ⟨u, q, -⟩
      · rw [hc, e1] at q; cases q
      · rw [hc] at q; cases q
    · have e := key _ hlt.le le_rfl (.inl hlt)
      rw [← e, agree_direction h.agree] at hd
      rw [← e] at hl
      have b := v.step _ hlt
      rw [indef_body hl hd hw] at b
      exact view_not_indef v hlt (Prod.mk.inj (Except.ok.inj b)).2.symm
  refine ⟨hlen, fun k hk hf => view_same_entry v v' hk (by omega) (key (k + 1) (by omega) (by omega) (by omega)), ?_, ?_⟩
  · intro a ha
    split_ifs at ha with hf
    · rw [hf] at hfo
      obtain ⟨it, hlast, hmean⟩ := hfo
      have hpos : 0 < out.iterations.length := by
        rcases Nat.eq_zero_or_pos out.iterations.length with h0 | h0
        · rw [List.length_eq_zero_iff.mp h0] at hlast; cases hlast
        · exact h0
      have P := v.pass (out.iterations.length - 1) (by omega)
      have hit := v.log (out.iterations.length - 1) (by omega)
      rw [List.getLast?_eq_getElem?, hit] at hlast
      have hres : (W (out.iterations.length - 1)).res = .firstOrderSatisfied := by
        rw [← P.ires, Option.some.inj hlast]; exact hmean.1
      have hvars := P.vars
      rw [hres, if_neg (by simp), Nat.sub_add_cancel hpos] at hvars
      rw [v'.after _ (by omega)] at ha
      rw [v.vars, hvars, ha, key (out.iterations.length - 1) (by omega) (by omega) (.inl (by omega))]
    · rw [v'.after _ hlen] at ha
      rw [v.vars, ha, key _ le_rfl hlen (.inr hf)]
  · rcases v.stop with ⟨ht, _⟩ | ⟨_, hpos, hT, _⟩ | ⟨ht, hm, hn, qp, pre, ob1, res, hl, hd, hw, _⟩
    · exact .inl ht
    · rcases exits (out.iterations.length - 1) (by omega) (by omega) with ⟨q, q2⟩ | ⟨u, q, q2⟩
      · have e0 : out.iterations.length - 1 + 1 = out.iterations.length := by omega
        rw [e0] at q2
        have hle : out'.iterations.length = out.iterations.length := by
          by_contra hne
          rw [v'.cont _ (by omega), hT] at q
          cases q
        have ht' : out.termination = out'.termination := by
          rcases v'.stop with ⟨_, _, hn, _⟩ | ⟨_, _, hT', _⟩ | ⟨_, _, hn, _⟩
          · rw [hn _ (by omega), hT] at q; cases q
          · rw [hle, ← q, hT] at hT'; exact Option.some.inj hT'
          · rw [hn _ (by omega), hT] at q; cases q
        have s1 := v.slog _ le_rfl
        have s2 := v'.slog _ le_rfl
        rw [hle, ← q2, s1, List.take_length, ← hle, List.take_length] at s2
        refine .inr (.inr (.inr (.inr (.inr ⟨ht', s2, ?_, ?_⟩))))
        · rw [v.calls, v'.calls, hle, q2]
        · rw [v.vars, v'.vars, hle, q2]
      · rw [hT] at q
        cases q
        rcases q2 with q2 | q2 | q2 | q2 | q2
        · exact .inl q2
        · exact .inr (.inl q2)
        · exact .inr (.inr (.inl q2))
        · exact .inr (.inr (.inr (.inl q2)))
        · exact .inr (.inr (.inr (.inr (.inl q2))))
    · have e := key _ le_rfl hlen (.inr (by rw [ht]; simp))
      have hd' := hd
      rw [← agree_direction h.agree] at hd'
      rw [e] at hd' hl
      have hle : out'.iterations.length = out.iterations.length := by
        by_contra hne
        have b := v'.step out.iterations.length (by omega)
        rw [indef_body hl hd' hw] at b
        exact view_not_indef v' (k := out.iterations.length) (by omega) (Prod.mk.inj (Except.ok.inj b)).2.symm
      have ht' : out.termination = out'.termination := by
        rcases v'.stop with ⟨_, e1, _⟩ | ⟨_, hpos, hT', _⟩ | ⟨e1, _⟩
        · omega
        · rcases exits (out.iterations.length - 1) (by omega) (by omega) with ⟨q, -⟩ | ⟨u, q, -⟩
          · rw [hn _ (by omega), ← hle, hT'] at q; cases q
          · rw [hn _ (by omega)] at q; cases q
        · rw [ht, e1]
      have s1 := v.slog _ le_rfl
      have s2 := v'.slog _ le_rfl
      rw [hle, ← e, s1, List.take_length, ← hle, List.take_length] at s2
      refine .inr (.inr (.inr (.inr (.inr ⟨ht', s2, ?_, ?_⟩))))
      · rw [v.calls, v'.calls, hle, e]
      · rw [v.vars, v'.vars, hle, e]

end real

/-- **C132** (exact arithmetic: looser parameters stop sooner, on the same path). If a call with stricter parameters (a larger iteration
limit, smaller exit tolerances, a larger `max_lambda`) returns, then so does the same call with the looser ones (unless the callback can
throw and the first-derivative tolerances differ). It logs no more iterations; its log is the beginning of the other log, except that
its last iteration may be reported differently if it ends with `SATISFIED_FIRST_ORDER_TOL`; it ends with the variables that the stricter
run had at that time; and either it is stopped by one of these parameters or the two runs are the same to the end. -/
theorem C132_looser {n D : Nat} (env : Env n D ℝ) (hp : WellPosed env.p n) (prm prm' : NLSParams ℝ) (h : Stricter prm prm')
    (hv : NLSParamsValid prm)
    (hcb : prm'.absoluteFirstDerivativeTol = prm.absoluteFirstDerivativeTol ∨ env.callback = none ∨ ∀ l, env.callbackThrows l = false)
    (x0 : Fin n → ℝ) (o o1' : env.Obj) (out' : NLSOutputs ℝ) (calls' : List (NLSIteration ℝ))
    (hs' : solve env prm' x0 o = .ok (o1', out', calls')) :
    ∃ o1 out calls, solve env prm x0 o = .ok (o1, out, calls) ∧ out.iterations.length ≤ out'.iterations.length ∧
      (∀ k, k < out.iterations.length → (k + 1 < out.iterations.length ∨ out.termination ≠ .satisfiedFirstOrderTol) →
        out.iterations[k]? = out'.iterations[k]?) ∧
      (∃ a, After env prm' x0 o (if out.termination = .satisfiedFirstOrderTol then out.iterations.length - 1
        else out.iterations.length) a ∧ o1.vars = a.vars) ∧
      (out.termination = .maxIterations ∨ out.termination = .satisfiedAbsoluteTol ∨ out.termination = .satisfiedRelativeTol ∨
        out.termination = .satisfiedFirstOrderTol ∨ out.termination = .maxLambda ∨
        (out.termination = out'.termination ∧ out.iterations = out'.iterations ∧ calls = calls' ∧ o1.vars = o1'.vars)) := by
  obtain ⟨o1, out, calls, h1, h2, h3, h4, h5⟩ := looser_core env hp prm prm' h hv hcb x0 o o1' out' calls' hs'
  refine ⟨o1, out, calls, h1, h2, h3, ?_, h5⟩
  obtain ⟨S, T, W, v⟩ := solve_view hs'
  have hk : (if out.termination = .satisfiedFirstOrderTol then out.iterations.length - 1 else out.iterations.length)
      ≤ out'.iterations.length := by split_ifs <;> omega
  obtain ⟨t, ht⟩ := v.upto _ hk
  have ha := (⟨_, _, ht, by simp only [List.length_take]; omega⟩ : After env prm' x0 o _ _)
  exact ⟨_, ha, h4 _ ha⟩

section qp

variable {N M K : Nat}

theorem stricter_qp_loop (E : Eigen N K ℝ) (p : QP N M K ℝ) {prm prm' : QPParams ℝ} (h : StricterQP prm prm') :
    ∀ (f f' : Nat) (st : IPState N M K ℝ) (mu : ℝ) (log : List (QPIteration ℝ)) (r' : IPState N M K ℝ × QPOutputs ℝ), f ≤ f' →
      IP.solveLoop E p prm' f' st mu log = .ok r' →
      ∃ r d, IP.solveLoop E p prm f st mu log = .ok r ∧ r.2.iterations <+: r'.2.iterations ∧ log <+: r.2.iterations ∧
        r.2.iterations.length = log.length + d ∧ (f ≠ 0 → d ≠ 0) ∧
        (∃ rk, IP.solveLoop E p prm' d st mu log = .ok rk ∧ rk.1 = r.1 ∧ rk.2.iterations = r.2.iterations) ∧
        (r.2.termination = .maxIterations ∨ r.2.termination = .satisfiedKktTol) := by
  have e1 : prm'.barrierStrategy = prm.barrierStrategy := by rw [h.agree]
  have e2 : ∀ (kk : KKTError ℝ) (s : IPState N M K ℝ) (mu : ℝ), IP.nextMu prm' kk s mu = IP.nextMu prm kk s mu := by
    intro kk s mu; rw [h.agree]; rfl
  have hpre : ∀ (f : Nat) (st : IPState N M K ℝ) (mu : ℝ) (log : List (QPIteration ℝ)) (r : IPState N M K ℝ × QPOutputs ℝ),
      IP.solveLoop E p prm' f st mu log = .ok r → log <+: r.2.iterations := by
    intro f
    induction f with
    | zero => intro st mu log r hr; cases hr; exact List.prefix_refl _
    | succ f ih =>
      intro st mu log r hr
      unfold IP.solveLoop at hr
      split at hr
      · cases hr
      · dsimp only at hr
        split_ifs at hr
        · cases hr; exact List.prefix_append _ _
        · exact (List.prefix_append _ _).trans (ih _ _ _ _ hr)
  intro f
  induction f with
  | zero =>
    intro f' st mu log r' _ hr
    exact ⟨_, 0, rfl, hpre _ _ _ _ _ hr, List.prefix_refl _, rfl, fun h0 => absurd rfl h0, ⟨_, rfl, rfl, rfl⟩, .inl rfl⟩
  | succ f ih =>
    intro f' st mu log r' hf hr
    obtain ⟨f', rfl⟩ : ∃ g, f' = g + 1 := ⟨f' - 1, by omega⟩
    unfold IP.solveLoop at hr ⊢
    rw [e1] at hr
    cases hi : IP.iterate E p mu prm.barrierStrategy st with
    | error e => rw [hi] at hr; cases hr
    | ok v =>
      obtain ⟨st1, out⟩ := v
      rw [hi] at hr
      dsimp only at hr ⊢
      by_cases hx : (IP.computeErrors mu (IP.evaluateKKT p true st1)).max < prm.terminationKktTol ∧
          IP.computeMu (IP.evaluateKKT p true st1) < prm.terminationComplementarityTol
      · rw [if_pos hx]
        refine ⟨_, 1, rfl, ?_, List.prefix_append _ _, by simp, fun _ => by simp, ?_, .inr rfl⟩
        · split_ifs at hr
          · cases hr; exact List.prefix_refl _
          · exact hpre _ _ _ _ _ hr
        · simp only [IP.solveLoop, e1, hi]
          split_ifs
          · exact ⟨_, rfl, rfl, rfl⟩
          · exact ⟨_, rfl, rfl, rfl⟩
      · have hx' : ¬ ((IP.computeErrors mu (IP.evaluateKKT p true st1)).max < prm'.terminationKktTol ∧
            IP.computeMu (IP.evaluateKKT p true st1) < prm'.terminationComplementarityTol) := fun ⟨a, b⟩ =>
          hx ⟨lt_of_lt_of_le a h.terminationKktTol, lt_of_lt_of_le b h.terminationComplementarityTol⟩
        rw [if_neg hx]
        rw [if_neg hx', e2] at hr
        obtain ⟨r, d, q1, q2, q3, q4, -, ⟨rk, q5, q6, q7⟩, q8⟩ := ih f' _ _ _ _ (by omega) hr
        refine ⟨r, d + 1, q1, q2, (List.prefix_append _ _).trans q3, ?_, fun _ => by simp, ⟨rk, ?_, q6, q7⟩, q8⟩
        · rw [q4, List.length_append, List.length_singleton]; omega
        · simp only [IP.solveLoop, e1, hi]
          rw [if_neg hx', e2]
          exact q5

theorem solveLoop_maxIterations (E : Eigen N K ℝ) (p : QP N M K ℝ) (prm : QPParams ℝ) (k : Int) :
    ∀ (f : Nat) (st : IPState N M K ℝ) (mu : ℝ) (log : List (QPIteration ℝ)),
      IP.solveLoop E p { prm with maxIterations := k } f st mu log = IP.solveLoop E p prm f st mu log := by
  intro f
  induction f with
  | zero => intro st mu log; rfl
  | succ f ih =>
    intro st mu log
    simp only [IP.solveLoop, ih]
    rfl

/-- **C132** (interior point solver). If a solve with stricter parameters (a larger iteration limit, smaller termination tolerances)
returns, then so does the same call with the looser ones. Its log is the beginning of the other log; it ends in the state in which the
other run was after that many iterations. -/
theorem C132_qp (E : Eigen N K ℝ) (p : QP N M K ℝ) (prm prm' : QPParams ℝ) (h : StricterQP prm prm')
    (hv : MiniOpt.checkParams prm = .ok ()) (st : IPState N M K ℝ) (r' : IPState N M K ℝ × QPOutputs ℝ)
    (hs' : IP.solve E p prm' st = .ok r') :
    ∃ r, IP.solve E p prm st = .ok r ∧ r.2.iterations <+: r'.2.iterations ∧
      ∃ rk, IP.solve E p { prm' with maxIterations := r.2.iterations.length } st = .ok rk ∧ rk.1 = r.1 ∧
        rk.2.iterations = r.2.iterations := by
  obtain ⟨hc', st0, h0, hl⟩ := IP.solve_ok hs'
  have g1 : prm'.initialGuessMethod = prm.initialGuessMethod := by rw [h.agree]
  have g2 : IP.initialMu prm' (IP.evaluateKKT p true st0) = IP.initialMu prm (IP.evaluateKKT p true st0) := by rw [h.agree]; rfl
  have hpos : 0 < prm.maxIterations := ((IP.checkParams_ok_iff prm).mp hv).2.2.2.2
  rw [g2] at hl
  obtain ⟨r, d, q1, q2, -, q4, q4', ⟨rk, q5, q6, q7⟩, -⟩ := stricter_qp_loop E p h _ _ _ _ _ _ (Int.toNat_le_toNat h.maxIterations) hl
  have hd : 0 < d := Nat.pos_of_ne_zero (q4' (by omega))
  rw [List.length_nil, Nat.zero_add] at q4
  refine ⟨r, ?_, q2, rk, ?_, q6, q7⟩
  · unfold IP.solve
    rw [hv]
    dsimp only
    rw [← g1, h0]
    exact q1
  · have hc2 : MiniOpt.checkParams { prm' with maxIterations := (r.2.iterations.length : Int) } = .ok () := by
      rw [IP.checkParams_ok_iff] at hc' ⊢
      exact ⟨hc'.1, hc'.2.1, hc'.2.2.1, hc'.2.2.2.1, by rw [q4]; exact Int.natCast_pos.mpr hd⟩
    unfold IP.solve
    rw [hc2]
    dsimp only
    rw [h0]
    dsimp only
    rw [Int.toNat_natCast, solveLoop_maxIterations]
    rw [q4, show IP.initialMu { prm' with maxIterations := ((d : Nat) : Int) } (IP.evaluateKKT p true st0) = IP.initialMu prm (IP.evaluateKKT p true st0) from g2]
    exact q5

end qp

end MiniOpt.Props
