import Verif.Props.Resume
import Verif.Props.DoublesMore
import Verif.Props.DoublesState

/-!
# C116: parameters of the second call are valid; examples
-/

set_option autoImplicit false

namespace MiniOpt.Props

open MiniOpt.Spec MiniOpt.NLS

/-- **C116** (exact arithmetic). The parameters of the second call pass the parameter checks. -/
theorem C116_valid {n D : Nat} (env : Env n D ℝ) (prm : NLSParams ℝ) (x0 : Fin n → ℝ) (o o' : env.Obj)
    (out : NLSOutputs ℝ) (calls : List (NLSIteration ℝ)) (h : solve env prm x0 o = .ok (o', out, calls))
    (k : Nat) (it : NLSIteration ℝ) (hit : out.iterations[k]? = some it) :
    NLSParamsValid (resumed prm (prm.maxIterations - k) it.lambda (penaltyBefore prm out.iterations k)) := by
  obtain ⟨S, T, W, hv⟩ := solve_view h
  have hk := lt_of_getElem? hit
  have hle := hv.le
  have hl := (C43_lambda_limits env prm x0 o o' out calls h).1 it (List.mem_of_getElem? hit)
  have hpen : 0 ≤ penaltyBefore prm out.iterations k := by
    unfold penaltyBefore
    split_ifs with h0
    · exact hv.prmOk.equalityPenaltyInitial
    · rw [List.getElem?_eq_getElem (show k - 1 < out.iterations.length by omega)]
      exact ((C44_penalty env prm x0 o o' out calls h).1 _ (List.getElem_mem _)).1.le
  exact { hv.prmOk with
    maxIterations := by show (0 : Int) ≤ prm.maxIterations - k; omega
    lambdaInitial := hl
    equalityPenaltyInitial := hpen }

/-- **C116** (binary64). The same for doubles, with finite limits of the damping. -/
theorem C116_valid_double {n D : Nat} {L : Libm} (env : Env n D (Dbl L)) (prm : NLSParams (Dbl L)) (x0 : Fin n → Dbl L)
    (o o' : env.Obj) (out : NLSOutputs (Dbl L)) (calls : List (NLSIteration (Dbl L)))
    (h : solve env prm x0 o = .ok (o', out, calls)) (hmin : Dbl.Finite prm.minLambda) (hmax : Dbl.Finite prm.maxLambda)
    (k : Nat) (it : NLSIteration (Dbl L)) (hit : out.iterations[k]? = some it) :
    NLSParamsValid (resumed prm (prm.maxIterations - k) it.lambda (penaltyBefore prm out.iterations k)) := by
  obtain ⟨S, T, W, hv⟩ := solve_view h
  have hk := lt_of_getElem? hit
  have hle := hv.le
  have hl := ((C43_double env prm x0 o o' out calls h hmin hmax).1 it (List.mem_of_getElem? hit)).2
  have hpen : 0 ≤ penaltyBefore prm out.iterations k := by
    unfold penaltyBefore
    split_ifs with h0
    · exact hv.prmOk.equalityPenaltyInitial
    · rw [List.getElem?_eq_getElem (show k - 1 < out.iterations.length by omega)]
      have := (C44_double env prm x0 o o' out calls h).1 _ (List.getElem_mem (show k - 1 < out.iterations.length by omega))
      exact dbl_le_trans hv.prmOk.equalityPenaltyInitial this.2.2.1
  exact { hv.prmOk with
    maxIterations := by show (0 : Int) ≤ prm.maxIterations - k; omega
    lambdaInitial := hl
    equalityPenaltyInitial := hpen }

/-! ## Examples (exact rational arithmetic, default parameters) -/

open MiniOpt.DemoNLS

theorem rt_eq {r : Rt} {q : ℚ} (h : r.v = q) : r = ⟨q⟩ := by cases r; subst h; rfl

theorem sqrt2_log : (match solve (env1 sqrt2 none) (prm 10) (fun _ => ⟨5⟩) (obj1 sqrt2 none) with
    | .ok (_, out, _) => some (out.termination, out.iterations.map fun it => (it.lambda.v, it.penalty.v, it.optimizerState))
    | .error _ => none) = some (.satisfiedFirstOrderTol, List.replicate 5 (0, 1, .nominal)) := by decide +kernel

/-- `x² - 2` from 5 takes five iterations. Stopping after one, two, three or four of them and calling `Solve` again gives the
same result as one call, and so does calling it once more afterwards. -/
example : ∃ o' out calls, solve (env1 sqrt2 none) (prm 10) (fun _ => ⟨5⟩) (obj1 sqrt2 none) = .ok (o', out, calls) ∧
    out.iterations.length = 5 ∧
    (∀ (k : Nat), k < 5 → ∀ a, After (env1 sqrt2 none) (prm 10) (fun _ => ⟨5⟩) (obj1 sqrt2 none) k a → ∀ ob,
      ∃ ob', solve (env1 sqrt2 none) { prm 10 with maxIterations := 10 - k } a.vars ob
        = .ok (ob', ⟨.satisfiedFirstOrderTol, (out.iterations.drop k).map (renumber k)⟩, []) ∧ ob'.vars = o'.vars) ∧
    ∀ ob, ∃ ob' it, solve (env1 sqrt2 none) (prm 10) o'.vars ob = .ok (ob', ⟨.satisfiedFirstOrderTol, [it]⟩, []) ∧
      ob'.vars = o'.vars := by
  have hlog := sqrt2_log
  cases h : solve (env1 sqrt2 none) (prm 10) (fun _ => ⟨5⟩) (obj1 sqrt2 none) with
  | error e => rw [h] at hlog; cases hlog
  | ok r =>
    obtain ⟨o', out, calls⟩ := r
    rw [h] at hlog
    have hlog' := Option.some.inj hlog
    have ht : out.termination = .satisfiedFirstOrderTol := congrArg Prod.fst hlog'
    have hl : (out.iterations.map fun it => (it.lambda.v, it.penalty.v, it.optimizerState))
        = List.replicate 5 (0, 1, .nominal) := congrArg Prod.snd hlog'
    have hlen : out.iterations.length = 5 := by have := congrArg List.length hl; simpa using this
    have hall : ∀ it ∈ out.iterations, it.lambda = ⟨0⟩ ∧ it.penalty = ⟨1⟩ ∧ it.optimizerState = .nominal := fun it hm => by
      have h1 : (it.lambda.v, it.penalty.v, it.optimizerState) ∈ List.replicate 5 ((0 : ℚ), (1 : ℚ), OptimizerState.nominal) := by
        rw [← hl]; exact List.mem_map.mpr ⟨it, hm, rfl⟩
      have h2 := List.eq_of_mem_replicate h1
      simp only [Prod.mk.injEq] at h2
      obtain ⟨ha, hb, hc⟩ := h2
      refine ⟨?_, ?_, hc⟩
      · exact rt_eq ha
      · exact rt_eq hb
    have hst : ∀ k, stateBefore out.iterations k = .nominal := fun k => by
      unfold stateBefore
      split_ifs with h0
      · rfl
      · cases hk : out.iterations[k - 1]? with
        | none => rfl
        | some it => exact (hall it (List.mem_of_getElem? hk)).2.2
    have hpen : ∀ k, penaltyBefore (prm 10) out.iterations k = (prm 10).equalityPenaltyInitial := fun k => by
      unfold penaltyBefore
      split_ifs with h0
      · rfl
      · cases hk : out.iterations[k - 1]? with
        | none => rfl
        | some it => exact (hall it (List.mem_of_getElem? hk)).2.1
    refine ⟨o', out, calls, rfl, hlen, fun k hk a ha ob => ?_, fun ob => ?_⟩
    · obtain ⟨it, hit⟩ : ∃ it, out.iterations[k]? = some it := ⟨_, List.getElem?_eq_getElem (by omega)⟩
      have := C116_same_parameters (env1 sqrt2 none) rfl (prm 10) _ _ o' out calls h k it hit (hst k)
        (hall it (List.mem_of_getElem? hit)).1 (hpen k) a ha ob
      rw [ht] at this
      exact this
    · obtain ⟨it, hit⟩ : ∃ it, out.iterations.getLast? = some it := ⟨_, List.getLast?_eq_getElem? ▸ List.getElem?_eq_getElem (by omega)⟩
      obtain ⟨ob', h1, h2⟩ := C116_again (env1 sqrt2 none) rfl (prm 10) _ _ o' out calls h ht it hit (hst _)
        (hall it (List.mem_of_getLast? hit)).1 (hpen _) ob
      exact ⟨ob', _, h1, h2⟩

/-- **C116** (slices that lose the damping). On the residual `x - 3` with a Jacobian of the wrong sign and backtracking, one
call with ten iterations stops after four with `MAX_LAMBDA`. Calls of two iterations each, every one starting from the result of
the one before, forget the damping: each ends with `MAX_ITERATIONS` at the variables it started with, however many are made. -/
theorem C116_slices :
    (∃ o' out calls, solve (env1 wrongSign none) { prm 10 with lineSearchStrategy := .armijoBacktrack } (fun _ => ⟨5⟩)
      (obj1 wrongSign none) = .ok (o', out, calls) ∧ out.termination = .maxLambda ∧ out.iterations.length = 4) ∧
    ∀ ob, ∃ o' out calls, solve (env1 wrongSign none) { prm 2 with lineSearchStrategy := .armijoBacktrack } (fun _ => ⟨5⟩) ob
      = .ok (o', out, calls) ∧ out.termination = .maxIterations ∧ o'.vars = fun _ => ⟨5⟩ := by
  constructor
  · obtain ⟨o', out, calls, h, ht, hr, -⟩ := summary_run run_maxLambda
    refine ⟨o', out, calls, h, ht, ?_⟩
    have := congrArg List.length hr
    simpa using this
  · intro ob
    have hs : summary wrongSign none { prm 2 with lineSearchStrategy := .armijoBacktrack } 5
        = some (.maxIterations, [.maxIterations, .maxIterations], [[1, 4 / 5, 16 / 25], [1, 4 / 5, 16 / 25]], 5) := by decide +kernel
    obtain ⟨o1, out, calls, h, ht, -, -, hx⟩ := summary_run hs
    have hrep := C51_repeatable (env1 wrongSign none) { prm 2 with lineSearchStrategy := .armijoBacktrack } (fun _ => ⟨5⟩) ob
      (obj1 wrongSign none)
    rw [h] at hrep
    cases h2 : solve (env1 wrongSign none) { prm 2 with lineSearchStrategy := .armijoBacktrack } (fun _ => ⟨5⟩) ob with
    | error e => rw [h2] at hrep; cases hrep
    | ok r =>
      obtain ⟨o2, out2, calls2⟩ := r
      rw [h2] at hrep
      have h3 : (o2.vars, out2, calls2) = (o1.vars, out, calls) := Except.ok.inj hrep
      simp only [Prod.mk.injEq] at h3
      refine ⟨o2, out2, calls2, rfl, by rw [h3.2.1, ht], ?_⟩
      rw [h3.1]
      funext i
      have hi : i = 0 := Subsingleton.elim i 0
      subst hi
      exact rt_eq hx

end MiniOpt.Props
