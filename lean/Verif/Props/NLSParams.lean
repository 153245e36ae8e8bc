import Verif.Lemmas.NLSView
import Verif.Lemmas.DemoNLS
import Verif.Lemmas.QPReal
import Verif.Props.NLSLog

/-!
# C52, C53: what the nonlinear solver checks about its inputs

More concrete cases: `Props/MoreExamples.lean`.
-/

set_option autoImplicit false

namespace MiniOpt.Props

open MiniOpt.Spec MiniOpt.NLS

variable {α : Type} [Scalar α] {n D : Nat}

/-- **C52** (rejection). With a parameter outside its documented range (or NaN) `Solve` throws an assertion and
leaves the object as it was: nothing is evaluated. -/
theorem C52_rejected (env : Env n D α) (prm : NLSParams α) (x0 : Fin n → α) (o : env.Obj)
    (h : ¬ NLSParamsValid prm) : ∃ tag, solve env prm x0 o = .error (.assertion tag, o) := by
  unfold solve
  cases hc : NLS.checkParams prm with
  | ok u => exact absurd ((checkParams_iff prm).mp hc) h
  | error e =>
    have : ∃ tag, e = .assertion tag := by
      have step : ∀ (c : Prop) [Decidable c] (t : String) (rest : Res Unit), (∀ e, rest = .error e → ∃ tag, e = .assertion tag) →
          ∀ e, (if c then .error (.assertion t) else rest) = .error e → ∃ tag, e = .assertion tag := by
        intro c _ t rest hr e he
        by_cases hc : c
        · rw [if_pos hc] at he; cases he; exact ⟨_, rfl⟩
        · rw [if_neg hc] at he; exact hr e he
      have all : ∀ e, NLS.checkParams prm = .error e → ∃ tag, e = .assertion tag := by
        unfold NLS.checkParams
        iterate 23 refine step _ _ _ ?_
        intro e he; cases he
      exact all e hc
    obtain ⟨tag, rfl⟩ := this
    exact ⟨tag, rfl⟩

/-- **C52** (acceptance). In-range parameters pass: with the iteration limit 0 `Solve` always returns, with the start
values and an empty log. Together with `C52_rejected`: parameters are rejected exactly when out of range. -/
theorem C52_accepted (env : Env n D α) (prm : NLSParams α) (x0 : Fin n → α) (o : env.Obj) :
    (∃ r, solve env { prm with maxIterations := 0 } x0 o = .ok r) ↔ NLSParamsValid { prm with maxIterations := 0 } := by
  constructor
  · rintro ⟨⟨o', out, calls⟩, h⟩
    obtain ⟨S, T, W, hv⟩ := solve_view h
    exact hv.prmOk
  · intro h
    unfold solve
    rw [(checkParams_iff _).mpr h]
    exact ⟨_, rfl⟩

/-- The limit 0 returns the start values. -/
theorem C52_zero_iterations (env : Env n D α) (prm : NLSParams α) (x0 : Fin n → α) (o o' : env.Obj)
    (out : NLSOutputs α) (calls : List (NLSIteration α)) (h0 : prm.maxIterations = 0)
    (h : solve env prm x0 o = .ok (o', out, calls)) :
    o'.vars = x0 ∧ out = ⟨.maxIterations, []⟩ ∧ calls = [] := by
  unfold solve at h
  split at h
  · cases h
  · rw [h0] at h
    simp only [Int.toNat_zero, loop] at h
    cases h
    exact ⟨rfl, rfl, rfl⟩

/-- **C52** (an accepted parameter that cannot work). `equality_penalty_initial = 0` is accepted, but without equality
constraints the penalty is never raised and the first line search requires it to be positive: whatever the
problem, `Solve` does not return. -/
theorem C52_zero_penalty_fatal (env : Env n D α) (prm : NLSParams α) (x0 : Fin n → α) (o : env.Obj)
    (heq : env.p.eqs = []) (hp : ¬ 0 < prm.equalityPenaltyInitial) (hm : 1 ≤ prm.maxIterations)
    (r : env.Obj × NLSOutputs α × List (NLSIteration α)) : solve env prm x0 o ≠ .ok r := by
  obtain ⟨o', out, calls⟩ := r
  intro h
  obtain ⟨S, T, W, hv⟩ := solve_view h
  by_cases hl : 0 < out.iterations.length
  · have hpass := hv.pass 0 hl
    have h1 := hpass.penalty
    unfold raisePenalty at h1
    rw [if_neg (by simp [heq]), hv.start] at h1
    have h2 := hpass.penPos
    rw [h1] at h2
    exact hp h2
  · rcases hv.stop with ⟨_, h1, _⟩ | ⟨_, h1, _⟩ | ⟨_, _, _, qp, pre, o1, res, h1, h2, h3, _⟩
    · omega
    · omega
    · have h0 : out.iterations.length = 0 := by omega
      rw [h0, hv.start] at h2
      have hsol : ∃ st, (start env prm x0 o).obj.solver = .ip st := by
        unfold start chooseSolver
        simp only [heq, ne_eq, not_true_eq_false, and_false, if_false]
        cases o.solver <;> exact ⟨_, rfl⟩
      obtain ⟨st, hst⟩ := hsol
      rcases stepDirection_cases h2 with ⟨_, _, _, q, _, _, _, hres, _⟩ | ⟨_, _, _, hns, _⟩
      · rw [hres] at h3; simp [wasIndefinite] at h3
      · simp only [hst] at hns; cases hns

/-- The refutation of "an accepted parameter set does not by itself make `Solve` throw": default parameters except
`equality_penalty_initial = 0` are accepted, and a problem that is solved with the default value makes `Solve`
throw. -/
theorem C52_zero_penalty_witness :
    ∃ (env : Env 1 1 DemoNLS.Rt) (x0 : Fin 1 → DemoNLS.Rt) (o : env.Obj),
      NLSParamsValid { (NLSParams.default : NLSParams DemoNLS.Rt) with equalityPenaltyInitial := 0 } ∧
      (∃ r, solve env NLSParams.default x0 o = .ok r) ∧
      ∃ o', solve env { (NLSParams.default : NLSParams DemoNLS.Rt) with equalityPenaltyInitial := 0 } x0 o
        = .error (.assertion "penalty > 0.0", o') := by
  refine ⟨DemoNLS.env1 DemoNLS.sqrt2 none, fun _ => ⟨5⟩, DemoNLS.obj1 DemoNLS.sqrt2 none, ?_, ?_, ?_⟩
  · rw [← checkParams_iff]; decide +kernel
  · obtain ⟨o', out, calls, h, _⟩ := DemoNLS.summary_run' DemoNLS.run_sqrt2
    exact ⟨_, h⟩
  · have h : (match solve (DemoNLS.env1 DemoNLS.sqrt2 none)
        { (NLSParams.default : NLSParams DemoNLS.Rt) with equalityPenaltyInitial := 0 } (fun _ => ⟨5⟩)
        (DemoNLS.obj1 DemoNLS.sqrt2 none) with
      | .error (.assertion t, _) => t
      | _ => "") = "penalty > 0.0" := by decide +kernel
    split at h
    · rename_i t o' hs
      rw [hs, h]
      exact ⟨o', rfl⟩
    · simp at h

/-- **C53**. With the default retraction and a start vector of the wrong size, `Solve` never completes an
iteration: if it returns although iterations are allowed, it stopped with an indefinite QP before the first one. -/
theorem C53_wrong_size (env : Env n D α) (prm : NLSParams α) (x0 : Fin n → α) (o o' : env.Obj)
    (out : NLSOutputs α) (calls : List (NLSIteration α)) (hR : env.retraction = none) (hn : n ≠ D)
    (h : solve env prm x0 o = .ok (o', out, calls)) :
    out.iterations = [] ∧ o'.vars = x0 ∧ (prm.maxIterations = 0 ∨ out.termination = .qpIndefinite) := by
  obtain ⟨S, T, W, hv⟩ := solve_view h
  have hl : out.iterations.length = 0 := by
    by_contra hne
    have hpass := hv.pass 0 (by omega)
    have hls := hpass.ls
    have hm := hv.prmOk.maxLineSearchIterations
    rw [show (prm.maxLineSearchIterations + 1).toNat = prm.maxLineSearchIterations.toNat + 1 by omega] at hls
    have hna : nextAlpha prm.lineSearchStrategy prm.armijoSearchTau 0 (W 0).pre (costDerivative (W 0).qp (W 0).dx)
        (S 1).penalty (1 : α) [] = .ok (some 1) := by
      unfold nextAlpha; cases prm.lineSearchStrategy <;> simp
    simp only [lsLoop, Nat.zero_add] at hls
    rw [hna] at hls
    simp only [retract, hR, dif_neg hn] at hls
    cases hls
  refine ⟨List.eq_nil_of_length_eq_zero hl, ?_, ?_⟩
  · rw [hv.vars, hl, hv.start]; rfl
  · rcases hv.stop with ⟨_, h1, _⟩ | ⟨_, h1, _⟩ | ⟨h1, _⟩
    · left; omega
    · omega
    · exact .inr h1

/-- A residual or constraint index outside the start vector stops `Solve` as well. -/
theorem C53_index_outside (env : Env n D α) (prm : NLSParams α) (x0 : Fin n → α) (o : env.Obj)
    (hc : ConsistentP env.p) (hidx : ¬ IndicesOk env.p n) (hm : 1 ≤ prm.maxIterations)
    (r : env.Obj × NLSOutputs α × List (NLSIteration α)) : solve env prm x0 o ≠ .ok r := by
  obtain ⟨o', out, calls⟩ := r
  intro h
  obtain ⟨S, T, W, hv⟩ := solve_view h
  by_cases hl : 0 < out.iterations.length
  · exact hidx (linearize_errors hc (hv.pass 0 hl).lin).1
  · rcases hv.stop with ⟨_, h1, _⟩ | ⟨_, h1, _⟩ | ⟨_, _, _, qp, pre, o1, res, h1, _⟩
    · omega
    · omega
    · exact hidx (linearize_errors hc h1).1

/-- Two variables given for a problem of dimension 1. -/
def wideEnv : Env 2 1 DemoNLS.Rt where
  p := ⟨[DemoNLS.sqrt2], [], []⟩
  retraction := none
  callback := none
  E := (DemoNLS.env1 DemoNLS.sqrt2 none).E
  NE := (DemoNLS.env1 DemoNLS.sqrt2 none).NE
  eigenvalues := fun G i => G i i
  freshIP := DemoNLS.zero1
  freshNS := ⟨fun _ => 0⟩

def wideObj : wideEnv.Obj :=
  ⟨⟨fun _ _ => 0, fun _ => 0, fun _ _ => 0, fun _ => 0, Fin.elim0⟩, .ip DemoNLS.zero1, fun _ => 0, fun _ => 0,
    fun _ => 0, [], .nominal⟩

/-- **C53** (witness). A start vector with one element too many passes every check the code makes: with default
parameters `Solve` ends in undefined behaviour (adding vectors of different size). -/
theorem C53_unchecked_size : NLSParamsValid (NLSParams.default : NLSParams DemoNLS.Rt) ∧ IndicesOk wideEnv.p 2 ∧
    ∃ tag o', solve wideEnv NLSParams.default (fun _ => ⟨5⟩) wideObj = .error (.ub tag, o') := by
  refine ⟨by rw [← checkParams_iff]; decide +kernel, ?_, ?_⟩
  · intro r hr l
    simp only [wideEnv, List.append_nil, List.mem_singleton] at hr
    subst hr
    exact ⟨le_rfl, by simp [DemoNLS.sqrt2, DemoNLS.res1]⟩
  · have h : (match solve wideEnv NLSParams.default (fun _ => ⟨5⟩) wideObj with
      | .error (.ub _, _) => true
      | _ => false) = true := by decide +kernel
    split at h
    · rename_i t o' hs
      exact ⟨t, o', hs⟩
    · simp at h

end MiniOpt.Props
