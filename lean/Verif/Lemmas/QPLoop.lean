import Verif.Lemmas.QPStep

/-! Induction principles for the loop of `Solve` (any arithmetic). -/

set_option autoImplicit false

namespace MiniOpt.IP

open MiniOpt

variable {α : Type} [Scalar α] {N M K : Nat}

/-- One pass through the loop body of `Solve`: from `(st, mu, log)` to the next loop head. -/
structure BodyStep (E : Eigen N K α) (p : QP N M K α) (prm : QPParams α)
    (st : IPState N M K α) (mu : α) (st2 : IPState N M K α) (it : QPIteration α) : Prop where
  out : ∃ st1, iterate E p mu prm.barrierStrategy st = .ok (st1, it.ip) ∧ st2 = evaluateKKT p true st1
  init : it.kktInitial = computeErrors mu st
  fin : it.kktFinal = computeErrors mu st2

/-- The exit test. -/
def ExitTest (prm : QPParams α) (st2 : IPState N M K α) (it : QPIteration α) : Prop :=
  it.kktFinal.max < prm.terminationKktTol ∧ computeMu st2 < prm.terminationComplementarityTol

@[reducible] instance (prm : QPParams α) (st2 : IPState N M K α) (it : QPIteration α) :
    Decidable (ExitTest prm st2 it) := by unfold ExitTest; infer_instance

theorem solveLoop_zero (E : Eigen N K α) (p : QP N M K α) (prm : QPParams α) (st : IPState N M K α)
    (mu : α) (log : List (QPIteration α)) :
    solveLoop E p prm 0 st mu log = .ok (st, ⟨.maxIterations, log, lagrangeSummary st.v.y⟩) := rfl

/-- Case analysis of one unfolding of the loop. -/
theorem solveLoop_succ (E : Eigen N K α) (p : QP N M K α) (prm : QPParams α) (n : Nat)
    (st : IPState N M K α) (mu : α) (log : List (QPIteration α)) :
    (∃ e, iterate E p mu prm.barrierStrategy st = .error e ∧
        solveLoop E p prm (n + 1) st mu log = .error e) ∨
    (∃ st2 it, BodyStep E p prm st mu st2 it ∧
      ((ExitTest prm st2 it ∧ solveLoop E p prm (n + 1) st mu log
          = .ok (st2, ⟨.satisfiedKktTol, log ++ [it], lagrangeSummary st2.v.y⟩)) ∨
       (¬ ExitTest prm st2 it ∧ solveLoop E p prm (n + 1) st mu log
          = solveLoop E p prm n st2 (nextMu prm it.kktFinal st2 mu) (log ++ [it])))) := by
  cases hI : iterate E p mu prm.barrierStrategy st with
  | error e => left; exact ⟨e, rfl, by simp [solveLoop, hI]⟩
  | ok r =>
    obtain ⟨st1, out⟩ := r
    right
    refine ⟨evaluateKKT p true st1,
      ⟨computeErrors mu st, computeErrors mu (evaluateKKT p true st1), out⟩,
      ⟨⟨st1, hI, rfl⟩, rfl, rfl⟩, ?_⟩
    by_cases hx : ExitTest prm (evaluateKKT p true st1)
      (⟨computeErrors mu st, computeErrors mu (evaluateKKT p true st1), out⟩ : QPIteration α)
    · left
      refine ⟨hx, ?_⟩
      unfold ExitTest at hx
      simp [solveLoop, hI, hx]
    · right
      refine ⟨hx, ?_⟩
      unfold ExitTest at hx
      rw [solveLoop]
      simp only [hI]
      rw [if_neg hx]

/-- Loop invariant rule. `I n st mu log` holds at every loop head with `n` iterations left;
conclude about normal and exceptional exits. -/
theorem solveLoop_rule (E : Eigen N K α) (p : QP N M K α) (prm : QPParams α)
    (I : Nat → IPState N M K α → α → List (QPIteration α) → Prop)
    (Post : IPState N M K α × QPOutputs α → Prop)
    (Exc : Fault × IPState N M K α → Prop)
    (hstep : ∀ n st mu log st2 it, I (n + 1) st mu log → BodyStep E p prm st mu st2 it →
      ¬ ExitTest prm st2 it → I n st2 (nextMu prm it.kktFinal st2 mu) (log ++ [it]))
    (hexit : ∀ n st mu log st2 it, I (n + 1) st mu log → BodyStep E p prm st mu st2 it →
      ExitTest prm st2 it → Post (st2, ⟨.satisfiedKktTol, log ++ [it], lagrangeSummary st2.v.y⟩))
    (hend : ∀ st mu log, I 0 st mu log → Post (st, ⟨.maxIterations, log, lagrangeSummary st.v.y⟩))
    (hexc : ∀ n st mu log e, I (n + 1) st mu log →
      iterate E p mu prm.barrierStrategy st = .error e → Exc e) :
    ∀ n st mu log, I n st mu log →
      match solveLoop E p prm n st mu log with
      | .ok r => Post r
      | .error e => Exc e := by
  intro n
  induction n with
  | zero => intro st mu log h; exact hend st mu log h
  | succ n ih =>
    intro st mu log h
    rcases solveLoop_succ E p prm n st mu log with ⟨e, he, hr⟩ | ⟨st2, it, hb, ⟨hx, hr⟩ | ⟨hx, hr⟩⟩
    · rw [hr]; exact hexc n st mu log e h he
    · rw [hr]; exact hexit n st mu log st2 it h hb hx
    · rw [hr]; exact ih _ _ _ (hstep n st mu log st2 it h hb hx)

/-- Specialisation for normal returns. -/
theorem solveLoop_ok_rule (E : Eigen N K α) (p : QP N M K α) (prm : QPParams α)
    (I : Nat → IPState N M K α → α → List (QPIteration α) → Prop)
    (Post : IPState N M K α × QPOutputs α → Prop)
    (hstep : ∀ n st mu log st2 it, I (n + 1) st mu log → BodyStep E p prm st mu st2 it →
      ¬ ExitTest prm st2 it → I n st2 (nextMu prm it.kktFinal st2 mu) (log ++ [it]))
    (hexit : ∀ n st mu log st2 it, I (n + 1) st mu log → BodyStep E p prm st mu st2 it →
      ExitTest prm st2 it → Post (st2, ⟨.satisfiedKktTol, log ++ [it], lagrangeSummary st2.v.y⟩))
    (hend : ∀ st mu log, I 0 st mu log → Post (st, ⟨.maxIterations, log, lagrangeSummary st.v.y⟩))
    {n : Nat} {st : IPState N M K α} {mu : α} {log : List (QPIteration α)}
    {r : IPState N M K α × QPOutputs α}
    (hI : I n st mu log) (h : solveLoop E p prm n st mu log = .ok r) : Post r := by
  have := solveLoop_rule E p prm I Post (fun _ => True) hstep hexit hend
    (fun _ _ _ _ _ _ _ => trivial) n st mu log hI
  rw [h] at this
  exact this

/-- Decomposition of a successful `Solve`. -/
theorem solve_ok {E : Eigen N K α} {p : QP N M K α} {prm : QPParams α} {st : IPState N M K α}
    {r : IPState N M K α × QPOutputs α} (h : solve E p prm st = .ok r) :
    checkParams prm = .ok () ∧ ∃ st0, initialGuess E p prm.initialGuessMethod st = .ok st0 ∧
      solveLoop E p prm prm.maxIterations.toNat (evaluateKKT p true st0)
        (initialMu prm (evaluateKKT p true st0)) [] = .ok r := by
  unfold solve at h
  split at h
  · cases h
  · rename_i hc
    refine ⟨hc, ?_⟩
    split at h
    · cases h
    · rename_i st0 h0
      exact ⟨st0, h0, h⟩

theorem checkParams_ok_iff (prm : QPParams α) :
    checkParams prm = .ok () ↔ (0 : α) < prm.initialMu ∧ (0 : α) < prm.sigma ∧ prm.sigma ≤ (1 : α) ∧
      (0 : α) < prm.terminationKktTol ∧ 0 < prm.maxIterations := by
  unfold checkParams
  split_ifs <;> simp_all

theorem WF_finishGuess {p : QP N M K α} {st st' : IPState N M K α} (hwf : WF st)
    (h : finishGuess p st = .ok st') : WF st' := by
  unfold finishGuess at h
  split at h
  · cases h
  · cases h; exact hwf

theorem WF_initialGuess {E : Eigen N K α} {p : QP N M K α} {g : InitialGuessMethod}
    {st st' : IPState N M K α} (hwf : WF st) (h : initialGuess E p g st = .ok st') : WF st' := by
  unfold initialGuess at h
  split at h
  · cases h; exact hwf
  · refine WF_finishGuess ?_ h; exact hwf
  · split at h
    · cases h
    · rename_i st1 h1
      refine WF_finishGuess ?_ h
      have : WF st1 := WF_computeLDLT (st := { st with v := { st.v with x := fun _ => 0, y := fun _ => 0 } })
        (by exact hwf) h1
      exact fun k l => WF_evaluateKKT (p := p) (b := false) this k l

end MiniOpt.IP
