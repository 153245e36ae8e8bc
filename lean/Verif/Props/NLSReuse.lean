import Verif.Lemmas.NLSSim
import Verif.Props.NLSLog
import Verif.Lemmas.QPReal

/-!
# C48, C51: repeated iterations and repeated solves (any arithmetic)
-/

set_option autoImplicit false

namespace MiniOpt.Props

open MiniOpt.Spec MiniOpt.NLS

variable {α : Type} [Scalar α] {n D : Nat}

/-- What the caller can observe of `Solve`: the variables, the outputs and the callback calls, or the exception. -/
def observeNLS {env : Env n D α} (r : Except (Fault × env.Obj) (env.Obj × NLSOutputs α × List (NLSIteration α))) :
    Except Fault ((Fin n → α) × NLSOutputs α × List (NLSIteration α)) :=
  match r with
  | .ok (o, out, calls) => .ok (o.vars, out, calls)
  | .error (e, _) => .error e

/-- **C51**. Whatever two solver objects of a problem contain (fresh, or left over from any earlier solves, also
ones that threw), the same call of `Solve` on them gives the same variables, outputs, callback calls or exception. -/
theorem C51_repeatable (env : Env n D α) (prm : NLSParams α) (x0 : Fin n → α) (o1 o2 : env.Obj) :
    observeNLS (solve env prm x0 o1) = observeNLS (solve env prm x0 o2) := by
  unfold solve
  cases hc : NLS.checkParams prm with
  | error e => rfl
  | ok _ =>
    simp only
    rcases loop_sim prm prm.maxIterations.toNat 0 (start env prm x0 o1) (start env prm x0 o2)
      ⟨⟨rfl, rfl, chooseSolver_kind env _ _⟩, rfl, rfl⟩ rfl rfl with
      ⟨e, a, a', e1, e2, -⟩ | ⟨r, r', t, e1, e2, hcore, hl, hcl⟩
    · rw [e1, e2]; rfl
    · rw [e1, e2]
      simp only [observeNLS]
      rw [hcore.obj.vars, hl, hcl]

/-- The states a solver object can be in after construction and any sequence of calls of `Solve`, with any parameters
and start values, including calls that throw. -/
inductive Reached (env : Env n D α) (fresh : env.Obj) : env.Obj → Prop
  | init : Reached env fresh fresh
  | ok {o o' prm x0 out calls} : Reached env fresh o → solve env prm x0 o = .ok (o', out, calls) →
      Reached env fresh o'
  | threw {o o' prm x0 e} : Reached env fresh o → solve env prm x0 o = .error (e, o') → Reached env fresh o'

/-- **C51** (histories). After any history of calls, a call of `Solve` gives what it gives on a fresh object. -/
theorem C51_history (env : Env n D α) (fresh o : env.Obj) (_ : Reached env fresh o) (prm : NLSParams α)
    (x0 : Fin n → α) : observeNLS (solve env prm x0 o) = observeNLS (solve env prm x0 fresh) :=
  C51_repeatable env prm x0 o fresh

/-- Solving twice on one object: the second call sees what the first one saw. -/
example (env : Env n D α) (prm : NLSParams α) (x0 : Fin n → α) (o o' : env.Obj) (out : NLSOutputs α)
    (calls : List (NLSIteration α)) (h : solve env prm x0 o = .ok (o', out, calls)) :
    observeNLS (solve env prm x0 o') = .ok (o'.vars, out, calls) := by
  rw [C51_history env o o' (.ok .init h), h]; rfl

/-- The histories are not trivial: in the run below the object's variables, candidate and QP buffers change. -/
example : ∃ o', Reached (DemoNLS.env1 DemoNLS.sqrt2 none) (DemoNLS.obj1 DemoNLS.sqrt2 none) o' ∧
    o'.vars ≠ (DemoNLS.obj1 DemoNLS.sqrt2 none).vars := by
  obtain ⟨o', out, calls, h, _, hr⟩ := DemoNLS.summary_run' DemoNLS.run_sqrt2
  refine ⟨o', .ok .init h, ?_⟩
  intro hv
  have h2 : (match solve (DemoNLS.env1 DemoNLS.sqrt2 none) (DemoNLS.prm 10) (fun _ => ⟨5⟩)
      (DemoNLS.obj1 DemoNLS.sqrt2 none) with
    | .ok (o', _, _) => decide ((o'.vars 0).v = 0)
    | .error _ => true) = false := by decide +kernel
  rw [h] at h2
  simp only [decide_eq_false_iff_not] at h2
  exact h2 (by rw [hv]; rfl)

/-! ## C48 -/

/-- The line search ended in a state the solver does not react to. -/
def Unrecoverable (r : StepResult) : Prop := r = .failureNonFiniteCost ∨ r = .failureInvalidAlpha

/-- Multiplying a positive product by the scale factor once more does not make it smaller: what is needed to know
that the penalty is raised at most once for the same data. True in exact arithmetic (`C48_real`) and in binary64. -/
def ScaleOk (p : Problem D α) (prm : NLSParams α) : Prop :=
  p.eqs = [] ∨ ∀ a : α, 0 < a * prm.equalityPenaltyScaleFactor → ¬ a * prm.equalityPenaltyScaleFactor < a

theorem raise_again {env : Env n D α} {prm : NLSParams α} (hs : ScaleOk env.p prm) {k : Nat} {s s1 : Loop env}
    {t : Option NLSTermination} {w : PassData env} (hp : Pass env prm k s s1 t w) :
    raisePenalty env.p prm w.qp w.dx w.out s1.penalty = s1.penalty := by
  have h1 := hp.penalty
  have h2 := hp.penPos
  unfold raisePenalty at h1 ⊢
  by_cases he : env.p.eqs ≠ []
  · rw [if_pos he] at h1 ⊢
    simp only at h1 ⊢
    split_ifs at h1 with hlt
    · rcases hs with hs | hs
      · exact absurd hs he
      · rw [h1] at h2 ⊢
        rw [if_neg (hs _ h2)]
    · rw [h1, if_neg hlt]
  · rw [if_neg he]

/-- **C48** (what happens next, for every iteration limit). Suppose the solve with `k + 1` iterations logs
`FAILURE_INVALID_ALPHA` or `FAILURE_NON_FINITE_COST` in the last of them. Then the solve with any larger iteration
limit returns (it does not throw, unless the user callback does), and all it adds to the log are copies of that entry, numbered on; the variables
stay as they are, and it ends only by the iteration limit or the user callback. -/
theorem C48_stall_forever (env : Env n D α) (prm : NLSParams α) (hs : ScaleOk env.p prm) (x0 : Fin n → α)
    (o o1 : env.Obj) (out1 : NLSOutputs α) (calls1 : List (NLSIteration α)) (k : Nat)
    (h : solve env { prm with maxIterations := (k + 1 : Nat) } x0 o = .ok (o1, out1, calls1))
    (it : NLSIteration α) (hit : out1.iterations[k]? = some it) (hf : Unrecoverable it.stepResult)
    (N : Nat) (hN : k + 1 ≤ N) :
    (∃ o2 out2 calls2 m, solve env { prm with maxIterations := (N : Int) } x0 o = .ok (o2, out2, calls2) ∧
      m ≤ N - (k + 1) ∧ o2.vars = o1.vars ∧
      out2.iterations = out1.iterations ++ (List.range m).map (fun i => { it with iteration := ((k + 1 + i : Nat) : Int) }) ∧
      ((out2.termination = .maxIterations ∧ m = N - (k + 1)) ∨
        (out2.termination = .userCallback ∧ env.callback ≠ none))) ∨
    (env.callback ≠ none ∧ ∃ ob : env.Obj, solve env { prm with maxIterations := (N : Int) } x0 o = .error (.user, ob) ∧
      ob.vars = o1.vars) := by
  obtain ⟨S, T, W, hv⟩ := solve_view h
  obtain ⟨hk, rfl, hp⟩ := view_info hv hit
  have hlen : out1.iterations.length = k + 1 := by
    have := hv.le
    simp only at this
    omega
  rw [hp.ires] at hf
  set P : NLSParams α := { prm with maxIterations := ((k + 1 : Nat) : Int) } with hP
  have hc : NLS.checkParams { P with maxIterations := (N : Int) } = .ok () :=
    checkParams_cap ((checkParams_iff P).mpr hv.prmOk) N
  have hsP : ScaleOk env.p P := hs
  have hpen := raise_again hsP hp
  have hTk : ∀ j, j < k → T j = none := fun j hj => hv.cont j (by omega)
  have hvars1 : o1.vars = (S k).obj.vars := by
    rw [hv.vars, hlen, hp.vars, if_neg]
    rcases hf with h | h <;> rw [h] <;> simp
  have hlog1 : (S (k + 1)).log = out1.iterations := by
    rw [hv.slog (k + 1) (by omega), ← hlen, List.take_length]
  have hstart : NLS.start env { P with maxIterations := (N : Int) } x0 o = S 0 := hv.start.symm
  have hexit : (W k).exit = none := by
    rw [hp.exit]
    rcases hf with h | h <;> rw [h] <;> rfl
  have hterm := hp.term
  rw [hexit] at hterm
  have hsolve : ∀ r t, loop env P N 0 (S 0) = .ok (r, t) →
      solve env { prm with maxIterations := (N : Int) } x0 o = .ok (r.obj, ⟨t, r.log⟩, r.calls) := by
    intro r t hl
    have : ({ prm with maxIterations := (N : Int) } : NLSParams α) = { P with maxIterations := (N : Int) } := rfl
    rw [this]
    unfold solve
    rw [hc]
    simp only
    rw [Int.toNat_natCast, hstart, loop_cap, hl]
  cases hT : T k with
  | some t =>
    have h1 : loop env P N 0 (S 0) = .ok (S (k + 1), t) := by
      rw [show N = k + ((N - k - 1) + 1) by omega,
        loop_prefix k _ 0 S T (fun j hj => by rw [Nat.zero_add]; exact hv.step j (by omega)) hTk]
      simp only [loop]
      rw [Nat.zero_add, hv.step k hk, hT]
    refine .inl ⟨_, _, _, 0, hsolve _ _ h1, by omega, ?_, by simp [hlog1], .inr ?_⟩
    · rw [hv.vars, hlen]
    · rw [hT] at hterm
      unfold finish at hterm
      cases hcb : env.callback with
      | none => rw [hcb] at hterm; cases hterm
      | some cb =>
        rw [hcb] at hterm
        simp only at hterm
        split_ifs at hterm
        cases hterm
        exact ⟨rfl, by simp⟩
  | none =>
    have hkind : SameKind (S k).obj.solver (S (k + 1)).obj.solver := by
      obtain ⟨a, ha, hb⟩ := body_again hp hf hpen k (S k).log (S k).calls
      obtain ⟨sol, hd, hsol⟩ := hp.dir
      rw [hsol]
      exact stepDirection_kind hd
    have hcore : Core (⟨(S k).obj, (S k).lambda, (S (k + 1)).penalty, [], []⟩ : Loop env) (S (k + 1)) := by
      refine ⟨⟨?_, ?_, hkind⟩, ?_, rfl⟩
      · rw [← hvars1, hv.vars, hlen]
      · rw [hp.state]; rcases hf with h | h <;> rw [h] <;> rfl
      · rw [hp.lambda]; rcases hf with h | h <;> rw [h] <;> rfl
    have hpre : ∀ q, loop env P (N - (k + 1)) (0 + (k + 1)) (S (k + 1)) = q → loop env P N 0 (S 0) = q := by
      intro q e
      rw [show N = (k + 1) + (N - (k + 1)) by omega,
        loop_prefix (k + 1) _ 0 S T (fun j hj => by rw [Nat.zero_add]; exact hv.step j (by omega)) (fun j hj => by
          by_cases hjk : j = k
          · rw [hjk, hT]
          · exact hTk j (by omega)), e]
    rcases loop_again hp hf hpen (N - (k + 1)) (0 + (k + 1)) (S (k + 1)) hcore with
      ⟨r, tt, m, e, hvars, hm, hlog, hend⟩ | ⟨hcb, ob, e, hov⟩
    swap
    · refine .inr ⟨hcb, ob, ?_, by rw [hov, hvars1]⟩
      have : ({ prm with maxIterations := (N : Int) } : NLSParams α) = { P with maxIterations := (N : Int) } := rfl
      rw [this]
      unfold solve
      rw [hc]
      simp only
      rw [Int.toNat_natCast, hstart, loop_cap, hpre _ e]
    have h1 : loop env P N 0 (S 0) = .ok (r, tt) := hpre _ e
    refine .inl ⟨_, _, _, m, hsolve _ _ h1, hm, ?_, ?_, hend⟩
    · rw [hvars, hvars1]
    · rw [hlog, hlog1, Nat.zero_add]

/-- **C48**. After an entry logged `FAILURE_INVALID_ALPHA` or `FAILURE_NON_FINITE_COST` every later entry repeats it
except for its number, the variables do not change any more, and the solve ends by the iteration limit or the user
callback. -/
theorem C48_stall (env : Env n D α) (prm : NLSParams α) (hs : ScaleOk env.p prm) (x0 : Fin n → α) (o o' : env.Obj)
    (out : NLSOutputs α) (calls : List (NLSIteration α)) (h : solve env prm x0 o = .ok (o', out, calls))
    (k : Nat) (it : NLSIteration α) (hit : out.iterations[k]? = some it) (hf : Unrecoverable it.stepResult) :
    (∀ j it', k ≤ j → out.iterations[j]? = some it' → it' = { it with iteration := (j : Int) }) ∧
    (∀ j ob, k ≤ j → j ≤ out.iterations.length → After env prm x0 o j ob → ob.vars = o'.vars) ∧
    ((out.termination = .maxIterations ∧ (out.iterations.length : Int) = prm.maxIterations) ∨
      (out.termination = .userCallback ∧ env.callback ≠ none)) := by
  obtain ⟨S, T, W, hv⟩ := solve_view h
  have hk := lt_of_getElem? hit
  obtain ⟨t1, h1⟩ := hv.upto (k + 1) (by omega)
  have hit1 : (out.iterations.take (k + 1))[k]? = some it := by
    rw [List.getElem?_take_of_lt (by omega)]; exact hit
  have hmax := hv.prmOk.maxIterations
  have hle := hv.le
  have main := fun N hN => C48_stall_forever env prm hs x0 o _ _ _ k h1 it hit1 hf N hN
  have hself : ({ prm with maxIterations := (prm.maxIterations.toNat : Int) } : NLSParams α) = prm := by
    rw [Int.toNat_of_nonneg hmax]
  rcases main prm.maxIterations.toNat (by omega) with ⟨o2, out2, calls2, m, hsol, hm, hvars, hits, hterm⟩ | ⟨_, ob, hx, _⟩
  swap
  · rw [hself, h] at hx; cases hx
  rw [hself, h] at hsol
  cases hsol
  refine ⟨?_, ?_, ?_⟩
  · intro j it' hj hit'
    by_cases hjk : j = k
    · subst hjk
      rw [hit] at hit'
      cases hit'
      have : it.iteration = (j : Int) := by
        obtain ⟨_, hi, hp⟩ := view_info hv hit
        rw [hi, hp.iiter]
      rw [← this]
    · rw [hits] at hit'
      rw [List.getElem?_append_right (by simp; omega)] at hit'
      have hlen : (out.iterations.take (k + 1)).length = k + 1 := by simp; omega
      simp only [hlen] at hit'
      rw [List.getElem?_map, Option.map_eq_some_iff] at hit'
      obtain ⟨i, hi, rfl⟩ := hit'
      have := List.getElem?_eq_some_iff.mp hi
      obtain ⟨hi1, hi2⟩ := this
      rw [List.getElem_range] at hi2
      rw [show k + 1 + i = j by omega]
  · intro j ob hj hjl hob
    rw [(hv.after j hjl ob).mp hob]
    by_cases hjk : j = k
    · subst hjk
      obtain ⟨_, hi, hp⟩ := view_info hv hit
      have hne : it.stepResult ≠ .success := by rcases hf with h | h <;> rw [h] <;> simp
      rw [hvars, hp.vars, if_neg]
      rw [← hp.ires, ← hi]; exact hne
    · obtain ⟨tj, hj'⟩ := hv.upto j hjl
      rcases main j (by omega) with ⟨o3, out3, calls3, m3, hsol3, _, hvars3, _⟩ | ⟨_, ob, hx, _⟩
      swap
      · rw [hj'] at hx; cases hx
      rw [hj'] at hsol3
      cases hsol3
      rw [hvars3, hvars]
  · rcases hterm with ⟨ht, hm'⟩ | ht
    · left
      refine ⟨ht, ?_⟩
      have := congrArg List.length hits
      simp at this
      omega
    · exact .inr ht

/-- The scale condition holds in exact arithmetic whenever the parameters are accepted. -/
theorem C48_real (p : Problem D ℝ) (prm : NLSParams ℝ) (h : NLSParamsValid prm) : ScaleOk p prm := by
  right
  intro a ha
  have h1 := h.equalityPenaltyScaleFactor
  change (0 : ℝ) < a * prm.equalityPenaltyScaleFactor at ha
  change ¬ (a * prm.equalityPenaltyScaleFactor < a)
  change (1 : ℝ) ≤ prm.equalityPenaltyScaleFactor at h1
  nlinarith

/-- **C48** is not vacuous: the run `run_cubic` stalls from its third iteration on. -/
example : ∃ o' out calls, solve (DemoNLS.env1 DemoNLS.cubic none) (DemoNLS.prm 4) (fun _ => ⟨1 / 10⟩)
    (DemoNLS.obj1 DemoNLS.cubic none) = .ok (o', out, calls) ∧ ScaleOk (DemoNLS.env1 DemoNLS.cubic none).p (DemoNLS.prm 4) ∧
    ∃ it, out.iterations[2]? = some it ∧ Unrecoverable it.stepResult ∧
      out.iterations[3]? = some { it with iteration := 3 } := by
  obtain ⟨o', out, calls, h, _, hr⟩ := DemoNLS.summary_run' DemoNLS.run_cubic
  have hs : ScaleOk (DemoNLS.env1 DemoNLS.cubic none).p (DemoNLS.prm 4) := .inl rfl
  have hlen : out.iterations.length = 4 := by
    have := congrArg List.length hr
    simpa using this
  have h2 : out.iterations[2]? = some out.iterations[2] := List.getElem?_eq_getElem (by omega)
  have h3 : out.iterations[3]? = some out.iterations[3] := List.getElem?_eq_getElem (by omega)
  have hf : Unrecoverable out.iterations[2].stepResult := by
    left
    have := congrArg (fun l => l[2]?) hr
    simp only [List.getElem?_map, h2] at this
    simpa using this
  refine ⟨o', out, calls, h, hs, _, h2, hf, ?_⟩
  rw [h3, (C48_stall _ _ hs _ _ _ _ _ h 2 _ h2 hf).1 3 _ (by omega) h3]
  rfl

end MiniOpt.Props
