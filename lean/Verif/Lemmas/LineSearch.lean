import Verif.Model.Nonlinear

/-!
# What a line search leaves behind (any arithmetic)
-/

set_option autoImplicit false

namespace MiniOpt.NLS

variable {α : Type} [Scalar α] {n D : Nat}

/-- The acceptance test of the line search (`nonlinear.cc:408-409`). -/
def Armijo (pre : Errors α) (d : DirectionalDerivatives α) (pen : α) (st : LineSearchStep α) : Prop :=
  st.errors.total pen ≤ pre.total pen + d.total pen * st.alpha * armijoC1

/-- None of the tests that end the line search applied to this step. -/
structure Rejected (prm : NLSParams α) (pre : Errors α) (d : DirectionalDerivatives α) (pen : α)
    (st : LineSearchStep α) : Prop where
  valid : ¬ st.errors.containsInvalid
  notFirstOrder : ¬ d.lInfinity < prm.absoluteFirstDerivativeTol
  notPositive : ¬ 0 < d.total pen
  notArmijo : ¬ Armijo pre d pen st

/-- The step size the search held before entry `j`. -/
def alphaBefore (steps : List (LineSearchStep α)) (j : Nat) : α :=
  if j = 0 then 1 else ((steps[j - 1]?).map (·.alpha)).getD 1

/-- Facts about the recorded steps that hold whatever the outcome. -/
structure Trace (env : Env n D α) (prm : NLSParams α) (x : Fin n → α) (dx : Fin D → α) (pre : Errors α)
    (d : DirectionalDerivatives α) (pen : α) (steps : List (LineSearchStep α)) : Prop where
  entry : ∀ st ∈ steps, ∃ c, retract env x dx st.alpha = .ok c ∧ evalErrors env.p c = .ok st.errors
  chain : ∀ (j : Nat) (hj : j < steps.length),
    nextAlpha prm.lineSearchStrategy prm.armijoSearchTau j pre d pen (alphaBefore steps j) (steps.take j)
      = .ok (some steps[j].alpha)

/-- How a line search that started with `fuel` iterations can end. -/
inductive Outcome (env : Env n D α) (prm : NLSParams α) (x : Fin n → α) (dx : Fin D → α) (pre : Errors α)
    (d : DirectionalDerivatives α) (pen : α) (fuel : Nat) :
    StepResult → List (LineSearchStep α) → Prop where
  | maxIterations (steps) (h : steps.length = fuel) (hr : ∀ st ∈ steps, Rejected prm pre d pen st) :
      Outcome env prm x dx pre d pen fuel .maxIterations steps
  | invalidAlpha (steps) (h : steps.length < fuel) (hr : ∀ st ∈ steps, Rejected prm pre d pen st)
      (hn : nextAlpha prm.lineSearchStrategy prm.armijoSearchTau steps.length pre d pen
        (alphaBefore steps steps.length) steps = .ok none) :
      Outcome env prm x dx pre d pen fuel .failureInvalidAlpha steps
  | nonFinite (steps st) (h : steps.length < fuel) (hr : ∀ st ∈ steps, Rejected prm pre d pen st)
      (hi : st.errors.containsInvalid) :
      Outcome env prm x dx pre d pen fuel .failureNonFiniteCost (steps ++ [st])
  | firstOrder (steps st) (h : steps.length < fuel) (hr : ∀ st ∈ steps, Rejected prm pre d pen st)
      (hv : ¬ st.errors.containsInvalid) (hf : d.lInfinity < prm.absoluteFirstDerivativeTol) :
      Outcome env prm x dx pre d pen fuel .firstOrderSatisfied (steps ++ [st])
  | positive (steps st) (h : steps.length < fuel) (hr : ∀ st ∈ steps, Rejected prm pre d pen st)
      (hv : ¬ st.errors.containsInvalid) (hf : ¬ d.lInfinity < prm.absoluteFirstDerivativeTol)
      (hp : 0 < d.total pen) : Outcome env prm x dx pre d pen fuel .positiveDerivative (steps ++ [st])
  | success (steps st) (h : steps.length < fuel) (hr : ∀ st ∈ steps, Rejected prm pre d pen st)
      (hv : ¬ st.errors.containsInvalid) (hf : ¬ d.lInfinity < prm.absoluteFirstDerivativeTol)
      (hp : ¬ 0 < d.total pen) (ha : Armijo pre d pen st) :
      Outcome env prm x dx pre d pen fuel .success (steps ++ [st])

/-- The outcome, result by result. -/
structure Outcome.Facts (prm : NLSParams α) (pre : Errors α) (d : DirectionalDerivatives α) (pen : α) (fuel : Nat)
    (res : StepResult) (steps : List (LineSearchStep α)) : Prop where
  len : steps.length ≤ fuel
  early : ∀ (j : Nat) (hj : j + 1 < steps.length), Rejected prm pre d pen (steps[j]'(by omega))
  success : res = .success → ∃ st, steps.getLast? = some st ∧ ¬ st.errors.containsInvalid ∧
    ¬ d.lInfinity < prm.absoluteFirstDerivativeTol ∧ ¬ 0 < d.total pen ∧ Armijo pre d pen st
  firstOrder : res = .firstOrderSatisfied → ∃ st, steps.getLast? = some st ∧ ¬ st.errors.containsInvalid ∧
    d.lInfinity < prm.absoluteFirstDerivativeTol
  positive : res = .positiveDerivative → ∃ st, steps.getLast? = some st ∧ ¬ st.errors.containsInvalid ∧
    ¬ d.lInfinity < prm.absoluteFirstDerivativeTol ∧ 0 < d.total pen
  nonFinite : res = .failureNonFiniteCost → ∃ st, steps.getLast? = some st ∧ st.errors.containsInvalid
  maxIter : res = .maxIterations → steps.length = fuel ∧ ∀ st ∈ steps, Rejected prm pre d pen st
  invalidAlpha : res = .failureInvalidAlpha → steps.length < fuel ∧ (∀ st ∈ steps, Rejected prm pre d pen st) ∧
    nextAlpha prm.lineSearchStrategy prm.armijoSearchTau steps.length pre d pen
        (alphaBefore steps steps.length) steps = .ok none

theorem Outcome.facts {env : Env n D α} {prm : NLSParams α} {x : Fin n → α} {dx : Fin D → α} {pre : Errors α}
    {d : DirectionalDerivatives α} {pen : α} {fuel : Nat} {res : StepResult} {steps : List (LineSearchStep α)}
    (h : Outcome env prm x dx pre d pen fuel res steps) : Outcome.Facts prm pre d pen fuel res steps := by
  have hall : ∀ (l : List (LineSearchStep α)) (hr : ∀ st ∈ l, Rejected prm pre d pen st) (j : Nat)
      (hj : j + 1 < l.length), Rejected prm pre d pen (l[j]'(by omega)) :=
    fun l hr j hj => hr _ (List.getElem_mem _)
  have hsn : ∀ (l : List (LineSearchStep α)) (st) (hr : ∀ st ∈ l, Rejected prm pre d pen st) (j : Nat)
      (hj : j + 1 < (l ++ [st]).length), Rejected prm pre d pen ((l ++ [st])[j]'(by omega)) := by
    intro l st hr j hj
    have hj' : j < l.length := by simpa using hj
    rw [List.getElem_append_left hj']
    exact hr _ (List.getElem_mem _)
  cases h with
  | maxIterations _ h hr =>
    exact ⟨h.le, hall _ hr, by simp, by simp, by simp, by simp, fun _ => ⟨h, hr⟩, by simp⟩
  | invalidAlpha _ h hr hn =>
    exact ⟨h.le, hall _ hr, by simp, by simp, by simp, by simp, by simp, fun _ => ⟨h, hr, hn⟩⟩
  | nonFinite l st h hr hi =>
    exact ⟨by simp; omega, hsn l st hr, by simp, by simp, by simp, fun _ => ⟨st, by simp, hi⟩, by simp, by simp⟩
  | firstOrder l st h hr hv hf =>
    exact ⟨by simp; omega, hsn l st hr, by simp, fun _ => ⟨st, by simp, hv, hf⟩, by simp, by simp, by simp, by simp⟩
  | positive l st h hr hv hf hp =>
    exact ⟨by simp; omega, hsn l st hr, by simp, by simp, fun _ => ⟨st, by simp, hv, hf, hp⟩, by simp, by simp,
      by simp⟩
  | success l st h hr hv hf hp ha =>
    exact ⟨by simp; omega, hsn l st hr, fun _ => ⟨st, by simp, hv, hf, hp, ha⟩, by simp, by simp, by simp, by simp,
      by simp⟩

theorem alphaBefore_append (steps : List (LineSearchStep α)) (st : LineSearchStep α) (j : Nat)
    (hj : j ≤ steps.length) : alphaBefore (steps ++ [st]) j = alphaBefore steps j := by
  unfold alphaBefore
  by_cases h : j = 0
  · simp [h]
  · rw [if_neg h, if_neg h, List.getElem?_append_left (by omega)]

theorem alphaBefore_last (steps : List (LineSearchStep α)) (st : LineSearchStep α) :
    alphaBefore (steps ++ [st]) (steps ++ [st]).length = st.alpha := by
  unfold alphaBefore
  simp

theorem Trace.snoc {env : Env n D α} {prm : NLSParams α} {x : Fin n → α} {dx : Fin D → α} {pre : Errors α}
    {d : DirectionalDerivatives α} {pen : α} {steps : List (LineSearchStep α)}
    (h : Trace env prm x dx pre d pen steps) {a : α} {c : Fin n → α} {es : Errors α}
    (hn : nextAlpha prm.lineSearchStrategy prm.armijoSearchTau steps.length pre d pen
      (alphaBefore steps steps.length) steps = .ok (some a))
    (hr : retract env x dx a = .ok c) (he : evalErrors env.p c = .ok es) :
    Trace env prm x dx pre d pen (steps ++ [⟨a, es⟩]) := by
  constructor
  · intro st hst
    rcases List.mem_append.mp hst with hst | hst
    · exact h.entry st hst
    · rw [List.mem_singleton.mp hst]; exact ⟨c, hr, he⟩
  · intro j hj
    rw [List.length_append, List.length_singleton] at hj
    rw [alphaBefore_append _ _ _ (by omega), List.take_append_of_le_length (by omega)]
    rcases Nat.lt_or_ge j steps.length with hlt | hge
    · rw [List.getElem_append_left hlt]
      exact h.chain j hlt
    · have : j = steps.length := by omega
      subst this
      rw [List.take_length, hn]
      simp

/-- The loop of `SelectStepSize` from a state reached by rejected steps. -/
theorem lsLoop_spec (env : Env n D α) (prm : NLSParams α) (x : Fin n → α) (dx : Fin D → α) (pre : Errors α)
    (d : DirectionalDerivatives α) (pen : α) (total : Nat) :
    ∀ (fuel : Nat) (alpha : α) (steps : List (LineSearchStep α)) (cand : Fin n → α)
      (res : StepResult) (steps' : List (LineSearchStep α)) (cand' : Fin n → α),
    fuel + steps.length = total → alpha = alphaBefore steps steps.length →
    Trace env prm x dx pre d pen steps → (∀ st ∈ steps, Rejected prm pre d pen st) →
    (∀ st, steps.getLast? = some st → retract env x dx st.alpha = .ok cand) →
    lsLoop env prm x dx pre d pen fuel steps.length alpha steps cand = .ok (res, steps', cand') →
    Trace env prm x dx pre d pen steps' ∧ Outcome env prm x dx pre d pen total res steps' ∧
      (∀ st, steps'.getLast? = some st → retract env x dx st.alpha = .ok cand') := by
  intro fuel
  induction fuel with
  | zero =>
    intro alpha steps cand res steps' cand' ht _ htr hrej hlast h
    simp only [lsLoop] at h
    cases h
    exact ⟨htr, .maxIterations _ (by omega) hrej, hlast⟩
  | succ fuel ih =>
    intro alpha steps cand res steps' cand' ht hal htr hrej hlast h
    simp only [lsLoop] at h
    split at h
    · cases h
    · rename_i hn
      cases h
      rw [hal] at hn
      exact ⟨htr, .invalidAlpha _ (by omega) hrej hn, hlast⟩
    · rename_i a hn
      rw [hal] at hn
      split at h
      · cases h
      · rename_i c hr
        split at h
        · cases h
        · rename_i es he
          have htr' := htr.snoc hn hr he
          have hl' : ∀ st, (steps ++ [(⟨a, es⟩ : LineSearchStep α)]).getLast? = some st →
              retract env x dx st.alpha = .ok c := by
            intro st hst
            rw [List.getLast?_append_of_ne_nil _ (by simp)] at hst
            simp at hst
            subst hst
            exact hr
          split_ifs at h with h1 h2 h3 h4
          · cases h
            exact ⟨htr', .nonFinite _ _ (by omega) hrej h1, hl'⟩
          · cases h
            exact ⟨htr', .firstOrder _ _ (by omega) hrej h1 h2, hl'⟩
          · cases h
            exact ⟨htr', .positive _ _ (by omega) hrej h1 h2 h3, hl'⟩
          · cases h
            exact ⟨htr', .success _ _ (by omega) hrej h1 h2 h3 h4, hl'⟩
          · have hlen : (steps ++ [(⟨a, es⟩ : LineSearchStep α)]).length = steps.length + 1 := by simp
            rw [← hlen] at h
            exact ih a (steps ++ [⟨a, es⟩]) c res steps' cand' (by omega)
              (alphaBefore_last steps ⟨a, es⟩).symm htr'
              (by
                intro st hst
                rcases List.mem_append.mp hst with hst | hst
                · exact hrej st hst
                · rw [List.mem_singleton.mp hst]
                  exact ⟨h1, h2, h3, h4⟩) hl' h

/-- The line search as `SelectStepSize` starts it. -/
theorem lsLoop_start (env : Env n D α) (prm : NLSParams α) (x : Fin n → α) (dx : Fin D → α) (pre : Errors α)
    (d : DirectionalDerivatives α) (pen : α) (fuel : Nat) (cand : Fin n → α) (res : StepResult)
    (steps' : List (LineSearchStep α)) (cand' : Fin n → α)
    (h : lsLoop env prm x dx pre d pen fuel 0 1 [] cand = .ok (res, steps', cand')) :
    Trace env prm x dx pre d pen steps' ∧ Outcome env prm x dx pre d pen fuel res steps' ∧
      (∀ st, steps'.getLast? = some st → retract env x dx st.alpha = .ok cand') :=
  lsLoop_spec env prm x dx pre d pen fuel fuel 1 [] cand res steps' cand' (by simp) (by simp [alphaBefore])
    ⟨by simp, by simp⟩ (by simp) (by simp) h

end MiniOpt.NLS
