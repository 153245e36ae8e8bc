import Verif.Spec.CallsSpec
import Verif.Props.NLSLog
import Verif.Props.Exceptions
import Verif.Props.QPSetup
import Verif.Props.NLSDescent
import Verif.Lemmas.DemoNLS

/-!
# C86: which user code is called, and when
-/

set_option autoImplicit false

namespace MiniOpt.Props

open MiniOpt MiniOpt.Spec MiniOpt.NLS

variable {α : Type} [Scalar α] {n D : Nat}

/-- `F`, run with any user code that answers like `env`, gives `r` and makes the calls `ev`: as `expected` if it
returns, and ending with the throwing one if user code threw. -/
structure Did (env : Env n D α) (calls : List (NLSIteration α)) {β ε : Type}
    (F : (W : Type) → World W n D α → W → W × Except ε β) (r : Except ε β) (fault : ε → Fault)
    (expected : β → List (UserCall n D α)) (ev : List (UserCall n D α)) : Prop where
  run : ∀ (W : Type) (u : World W n D α) (step : W → UserCall n D α → W) (seen : W → List (NLSIteration α)),
    AnswersLike env u step seen → ∀ w, seen w = calls → F W u w = (ev.foldl step w, r)
  ok : ∀ b, r = .ok b → ev = expected b
  user : ∀ e, r = .error e → fault e = .user → ∃ c, ev.getLast? = some c ∧ Throwing env c

/-- The part of `residualCalls` from number `i` on. -/
def callsFrom (role : Role) (jac : Bool) (x : Fin n → α) : Nat → List (Residual α) → List (UserCall n D α)
  | _, [] => []
  | i, r :: rs => .residual role i jac (List.ofFn (params r x)) :: callsFrom role jac x (i + 1) rs

theorem callsFrom_eq (role : Role) (jac : Bool) (x : Fin n → α) : ∀ (l : List (Residual α)) (i : Nat),
    callsFrom (D := D) role jac x i l = l.mapIdx fun j r => .residual role (i + j) jac (List.ofFn (params r x)) := by
  intro l
  induction l with
  | nil => intro i; rfl
  | cons r l ih =>
    intro i
    rw [callsFrom, ih, List.mapIdx_cons]
    simp only [Nat.add_zero, Nat.add_assoc, Nat.add_comm 1]

theorem residualCalls_eq (p : Problem D α) (jac : Bool) (x : Fin n → α) :
    residualCalls p jac x = callsFrom .cost jac x 0 p.costs ++ callsFrom .equality jac x 0 p.eqs := by
  simp only [residualCalls, callsFrom_eq, Nat.zero_add]

/-- The calls the callback gets. -/
def callbackOf : UserCall n D α → Option (NLSIteration α)
  | .callback info => some info
  | _ => none

omit [Scalar α] in
theorem seen_foldl {W : Type} {env : Env n D α} {u : World W n D α} {step : W → UserCall n D α → W}
    {seen : W → List (NLSIteration α)} (hA : AnswersLike env u step seen) : ∀ (ev : List (UserCall n D α)) (w : W),
    seen (ev.foldl step w) = seen w ++ ev.filterMap callbackOf := by
  intro ev
  induction ev with
  | nil => intro w; simp
  | cons e ev ih =>
    intro w
    rw [List.foldl_cons, ih]
    cases e with
    | residual role i j q => rw [hA.seenResidual]; rfl
    | retraction x dx a => rw [hA.seenRetraction]; rfl
    | callback info => rw [hA.seenCallback]; simp [callbackOf]

omit [Scalar α] in
theorem last_append {env : Env n D α} {ev ev' : List (UserCall n D α)}
    (h : ∃ c, ev'.getLast? = some c ∧ Throwing env c) : ∃ c, (ev ++ ev').getLast? = some c ∧ Throwing env c := by
  obtain ⟨c, h1, h2⟩ := h
  exact ⟨c, by rw [List.getLast?_append, h1]; rfl, h2⟩

theorem noCallback_from (role : Role) (jac : Bool) (x : Fin n → α) : ∀ (l : List (Residual α)) (i : Nat),
    (callsFrom (D := D) role jac x i l).filterMap callbackOf = [] := by
  intro l
  induction l with
  | nil => intro i; rfl
  | cons r l ih => intro i; rw [callsFrom, List.filterMap_cons]; exact ih (i + 1)

/-! ## Residuals -/

theorem hessCols_fault {d P : Nat} (index : Fin P → Int) (J : Fin d → Fin P → α) (row : Fin P) (rowG : Fin D) :
    ∀ (cs : List (Fin P)) (H : Fin D → Fin D → α) (e), Residual.hessCols index J row rowG cs H = .error e →
      e.1 ≠ .user := by
  intro cs
  induction cs with
  | nil => intro H e h; cases h
  | cons c cs ih =>
    intro H e h
    simp only [Residual.hessCols] at h
    split at h
    · cases h; exact fun h => by cases h
    · exact ih _ _ h

theorem hessRows_fault {d P : Nat} (index : Fin P → Int) (J : Fin d → Fin P → α) (r : Fin d → α) :
    ∀ (rows : List (Fin P)) (H : Fin D → Fin D → α) (b : Fin D → α) (e),
      Residual.hessRows index J r rows H b = .error e → e.1 ≠ .user := by
  intro rows
  induction rows with
  | nil => intro H b e h; cases h
  | cons c cs ih =>
    intro H b e h
    simp only [Residual.hessRows] at h
    split_ifs at h
    swap
    · cases h; exact fun h => by cases h
    · split at h
      · cases h; exact fun h => by cases h
      · split at h
        · rename_i hc
          cases h
          exact hessCols_fault _ _ _ _ _ _ _ hc
        · exact ih _ _ _ h

omit [Scalar α] in
theorem scatterCols_fault {d P : Nat} (index : Fin P → Int) (J : Fin d → Fin P → α) :
    ∀ (cs : List (Fin P)) (A : Fin d → Fin D → α) (e), Residual.scatterCols index J cs A = .error e →
      e.1 ≠ .user := by
  intro cs
  induction cs with
  | nil => intro A e h; cases h
  | cons c cs ih =>
    intro A e h
    simp only [Residual.scatterCols] at h
    split_ifs at h
    swap
    · cases h; exact fun h => by cases h
    · split at h
      · cases h; exact fun h => by cases h
      · exact ih _ _ h

theorem errorVector_did {env : Env n D α} (calls : List (NLSIteration α)) {role : Role} {i : Nat} {r : Residual α}
    (hr : (residualsOf env.p role)[i]? = some r) (x : Fin n → α) :
    ∃ ev, Did env calls (fun _ u w => errorVectorW u role i r x w) (r.errorVector x r.dim) id
      (fun _ => [.residual role i false (List.ofFn (params r x))]) ev := by
  by_cases hi : IdxIn r n
  · refine ⟨[.residual role i false (List.ofFn (params r x))], ?_, fun _ _ => rfl, ?_⟩
    · intro W u step seen hA w _
      unfold errorVectorW Residual.errorVector
      rw [if_neg (by simp), gather_ok r x hi, params_eq]
      simp only [hA.value w role i r _ hr]
      cases r.throws (params r x) <;> rfl
    · intro e he hf
      refine ⟨_, rfl, r, hr, params r x, rfl, ?_⟩
      unfold Residual.errorVector at he
      rw [if_neg (by simp), gather_ok r x hi, params_eq] at he
      simp only at he
      split_ifs at he with ht
      simpa using ht
  · obtain ⟨t, ht⟩ := gather_error r x hi
    have he : r.errorVector x r.dim = .error (.assertion t) := by
      unfold Residual.errorVector; rw [if_neg (by simp), ht]
    refine ⟨[], ?_, ?_, ?_⟩
    · intro W u step seen hA w _
      rw [he]; unfold errorVectorW; rw [ht]; rfl
    · intro b hb; rw [he] at hb; cases hb
    · intro e hb hf; rw [he] at hb; cases hb; cases hf

theorem updateHessian_did {env : Env n D α} (calls : List (NLSIteration α)) {role : Role} {i : Nat} {r : Residual α}
    (hr : (residualsOf env.p role)[i]? = some r) (x : Fin n → α) (H : Fin D → Fin D → α) (b : Fin D → α) :
    ∃ ev, Did env calls (fun _ u w => updateHessianW u role i r x H b w) (r.updateHessian x H b) (fun e => e.1)
      (fun _ => [.residual role i true (List.ofFn (params r x))]) ev := by
  by_cases hi : IdxIn r n
  · refine ⟨[.residual role i true (List.ofFn (params r x))], ?_, fun _ _ => rfl, ?_⟩
    · intro W u step seen hA w _
      unfold updateHessianW Residual.updateHessian
      rw [gather_ok r x hi, params_eq]
      simp only [hA.valueJ w role i r _ hr]
      cases r.throwsJ (params r x)
      · simp only [Bool.false_eq_true, if_false, List.foldl_cons, List.foldl_nil]
        cases Residual.hessRows r.index (r.jac (params r x)) (r.valueJ (params r x)) (List.finRange r.P) H b <;> rfl
      · rfl
    · intro e he hf
      refine ⟨_, rfl, r, hr, params r x, rfl, ?_⟩
      unfold Residual.updateHessian at he
      rw [gather_ok r x hi, params_eq] at he
      simp only at he
      split_ifs at he with ht
      · simpa using ht
      · split at he
        · rename_i hh
          cases he
          exact absurd hf (hessRows_fault _ _ _ _ _ _ _ hh)
        · cases he
  · obtain ⟨t, ht⟩ := gather_error r x hi
    have he : r.updateHessian x H b = .error (.assertion t, H, b) := by
      unfold Residual.updateHessian; rw [ht]
    refine ⟨[], ?_, ?_, ?_⟩
    · intro W u step seen hA w _
      rw [he]; unfold updateHessianW; rw [ht]; rfl
    · intro b hb; rw [he] at hb; cases hb
    · intro e hb hf; rw [he] at hb; cases hb; cases hf

theorem updateJacobian_did {env : Env n D α} (calls : List (NLSIteration α)) {role : Role} {i : Nat} {r : Residual α}
    (hr : (residualsOf env.p role)[i]? = some r) (x : Fin n → α) (A : Fin r.dim → Fin D → α) (b : Fin r.dim → α) :
    ∃ ev, Did env calls (fun _ u w => updateJacobianW u role i r x A b w) (r.updateJacobian x r.dim r.dim A b)
      (fun e => e.1) (fun _ => [.residual role i true (List.ofFn (params r x))]) ev := by
  by_cases hi : IdxIn r n
  · refine ⟨[.residual role i true (List.ofFn (params r x))], ?_, fun _ _ => rfl, ?_⟩
    · intro W u step seen hA w _
      unfold updateJacobianW Residual.updateJacobian
      rw [if_neg (by simp), if_neg (by simp), gather_ok r x hi, params_eq]
      simp only [hA.valueJ w role i r _ hr]
      cases r.throwsJ (params r x)
      · simp only [Bool.false_eq_true, if_false, List.foldl_cons, List.foldl_nil]
        cases Residual.scatterCols r.index (r.jac (params r x)) (List.finRange r.P) A <;> rfl
      · rfl
    · intro e he hf
      refine ⟨_, rfl, r, hr, params r x, rfl, ?_⟩
      unfold Residual.updateJacobian at he
      rw [if_neg (by simp), if_neg (by simp), gather_ok r x hi, params_eq] at he
      simp only at he
      split_ifs at he with ht
      · simpa using ht
      · split at he
        · rename_i hh
          cases he
          exact absurd hf (scatterCols_fault _ _ _ _ _ hh)
        · cases he
  · obtain ⟨t, ht⟩ := gather_error r x hi
    have he : r.updateJacobian x r.dim r.dim A b = .error (.assertion t, A, b) := by
      unfold Residual.updateJacobian; rw [if_neg (by simp), if_neg (by simp), ht]
    refine ⟨[], ?_, ?_, ?_⟩
    · intro W u step seen hA w _
      rw [he]; unfold updateJacobianW; rw [ht]; rfl
    · intro b hb; rw [he] at hb; cases hb
    · intro e hb hf; rw [he] at hb; cases hb; cases hf

/-! ## Loops over residuals -/

theorem shiftLoop_fault (x : Fin n → α) : ∀ (l : List (Ineq α)) (e : Fault), shiftLoop x l = .error e → e ≠ .user := by
  intro l
  induction l with
  | nil => intro e h; cases h
  | cons c l ih =>
    intro e h
    simp only [shiftLoop] at h
    split at h
    · rename_i e' hs
      cases h
      unfold shiftAt at hs
      split_ifs at hs
      swap
      · cases hs; exact fun h => by cases h
      · split at hs
        · cases hs; exact fun h => by cases h
        · cases hs
    · split at h
      · rename_i hl
        cases h
        exact ih _ hl
      · cases h

theorem linCosts_did (env : Env n D α) (calls : List (NLSIteration α)) (x : Fin n → α) : ∀ (l : List (Residual α))
    (i : Nat) (G : Fin D → Fin D → α) (c : Fin D → α) (f : α),
    (∀ j r, l[j]? = some r → (residualsOf env.p .cost)[i + j]? = some r) →
    ∃ ev, Did env calls (fun _ u w => linCostsW u x i l G c f w) (linCosts x l G c f) (fun e => e.1)
      (fun _ => callsFrom .cost true x i l) ev := by
  intro l
  induction l with
  | nil =>
    intro i G c f _
    exact ⟨[], fun _ _ _ _ _ _ _ => rfl, fun _ _ => rfl, fun e h => by cases h⟩
  | cons r l ih =>
    intro i G c f hl
    obtain ⟨ev, d⟩ := updateHessian_did (env := env) calls (hl 0 r rfl) x G c
    cases hu : r.updateHessian x G c with
    | error e =>
      refine ⟨ev, ?_, ?_, ?_⟩
      · intro W u step seen hA w hw
        simp only [linCostsW, linCosts]
        rw [show updateHessianW u .cost i r x G c w = _ from d.run W u step seen hA w hw, hu]
      · intro b hb; simp only [linCosts] at hb; rw [hu] at hb; cases hb
      · intro e' hb hf
        simp only [linCosts] at hb; rw [hu] at hb; cases hb
        exact d.user _ hu hf
    | ok res =>
      obtain ⟨G', c', e⟩ := res
      obtain ⟨ev', d'⟩ := ih (i + 1) G' c' (f + e) (fun j r' hj => by
        rw [Nat.add_assoc, Nat.add_comm 1]; exact hl (j + 1) r' hj)
      have hev := d.ok _ hu
      refine ⟨ev ++ ev', ?_, ?_, ?_⟩
      · intro W u step seen hA w hw
        simp only [linCostsW, linCosts]
        rw [show updateHessianW u .cost i r x G c w = _ from d.run W u step seen hA w hw, hu, List.foldl_append]
        simp only
        exact d'.run W u step seen hA _ (by rw [hev, List.foldl_cons, List.foldl_nil, hA.seenResidual]; exact hw)
      · intro b hb
        simp only [linCosts] at hb; rw [hu] at hb
        rw [hev, d'.ok _ hb]; rfl
      · intro e' hb hf
        simp only [linCosts] at hb; rw [hu] at hb
        exact last_append (d'.user _ hb hf)

theorem linEqs_did (env : Env n D α) (calls : List (NLSIteration α)) {K : Nat} (x : Fin n → α) :
    ∀ (l : List (Residual α)) (i row : Nat) (A : Fin K → Fin D → α) (b : Fin K → α) (f : α),
    (∀ j r, l[j]? = some r → (residualsOf env.p .equality)[i + j]? = some r) →
    ∃ ev, Did env calls (fun _ u w => linEqsW u x i l row A b f w) (linEqs x l row A b f) (fun e => e.1)
      (fun _ => callsFrom .equality true x i l) ev := by
  intro l
  induction l with
  | nil =>
    intro i row A b f _
    exact ⟨[], fun _ _ _ _ _ _ _ => rfl, fun _ _ => rfl, fun e h => by cases h⟩
  | cons r l ih =>
    intro i row A b f hl
    by_cases hrow : row + r.dim ≤ K
    · obtain ⟨ev, d⟩ := updateJacobian_did (env := env) calls (hl 0 r rfl) x (getRows A row hrow) (getRows b row hrow)
      cases hu : r.updateJacobian x r.dim r.dim (getRows A row hrow) (getRows b row hrow) with
      | error e =>
        obtain ⟨e, A', b'⟩ := e
        refine ⟨ev, ?_, ?_, ?_⟩
        · intro W u step seen hA w hw
          simp only [linEqsW, linEqs]
          rw [dif_pos hrow, dif_pos hrow,
            show updateJacobianW u .equality i r x (getRows A row hrow) (getRows b row hrow) w = _ from
              d.run W u step seen hA w hw, hu]
        · intro b hb; simp only [linEqs] at hb; rw [dif_pos hrow, hu] at hb; cases hb
        · intro e' hb hf
          simp only [linEqs] at hb; rw [dif_pos hrow, hu] at hb; cases hb
          exact d.user _ hu hf
      | ok res =>
        obtain ⟨A', b'⟩ := res
        obtain ⟨ev', d'⟩ := ih (i + 1) (row + r.dim) (setRows A row A') (setRows b row b') (f + lpNorm1 b')
          (fun j r' hj => by rw [Nat.add_assoc, Nat.add_comm 1]; exact hl (j + 1) r' hj)
        have hev := d.ok _ hu
        refine ⟨ev ++ ev', ?_, ?_, ?_⟩
        · intro W u step seen hA w hw
          simp only [linEqsW, linEqs]
          rw [dif_pos hrow, dif_pos hrow,
            show updateJacobianW u .equality i r x (getRows A row hrow) (getRows b row hrow) w = _ from
              d.run W u step seen hA w hw, hu, List.foldl_append]
          simp only
          exact d'.run W u step seen hA _ (by rw [hev, List.foldl_cons, List.foldl_nil, hA.seenResidual]; exact hw)
        · intro b hb
          simp only [linEqs] at hb; rw [dif_pos hrow, hu] at hb
          rw [hev, d'.ok _ hb]; rfl
        · intro e' hb hf
          simp only [linEqs] at hb; rw [dif_pos hrow, hu] at hb
          exact last_append (d'.user _ hb hf)
    · refine ⟨[], ?_, ?_, ?_⟩
      · intro W u step seen hA w hw
        simp only [linEqsW, linEqs]
        rw [dif_neg hrow, dif_neg hrow]; rfl
      · intro b hb; simp only [linEqs] at hb; rw [dif_neg hrow] at hb; cases hb
      · intro e hb hf; simp only [linEqs] at hb; rw [dif_neg hrow] at hb; cases hb; cases hf

theorem evalCosts_did (env : Env n D α) (calls : List (NLSIteration α)) (x : Fin n → α) : ∀ (l : List (Residual α))
    (i : Nat) (f : α), (∀ j r, l[j]? = some r → (residualsOf env.p .cost)[i + j]? = some r) →
    ∃ ev, Did env calls (fun _ u w => evalCostsW u x i l f w) (evalCosts x l f) id
      (fun _ => callsFrom .cost false x i l) ev := by
  intro l
  induction l with
  | nil =>
    intro i f _
    exact ⟨[], fun _ _ _ _ _ _ _ => rfl, fun _ _ => rfl, fun e h => by cases h⟩
  | cons r l ih =>
    intro i f hl
    obtain ⟨ev, d⟩ := errorVector_did (env := env) calls (hl 0 r rfl) x
    cases hu : r.errorVector x r.dim with
    | error e =>
      refine ⟨ev, ?_, ?_, ?_⟩
      · intro W u step seen hA w hw
        simp only [evalCostsW, evalCosts]
        rw [show errorVectorW u .cost i r x w = _ from d.run W u step seen hA w hw, hu]
      · intro b hb; simp only [evalCosts] at hb; rw [hu] at hb; cases hb
      · intro e' hb hf
        simp only [evalCosts] at hb; rw [hu] at hb; cases hb
        exact d.user _ hu hf
    | ok v =>
      obtain ⟨ev', d'⟩ := ih (i + 1) (f + Residual.half * squaredNorm v) (fun j r' hj => by
        rw [Nat.add_assoc, Nat.add_comm 1]; exact hl (j + 1) r' hj)
      have hev := d.ok _ hu
      refine ⟨ev ++ ev', ?_, ?_, ?_⟩
      · intro W u step seen hA w hw
        simp only [evalCostsW, evalCosts]
        rw [show errorVectorW u .cost i r x w = _ from d.run W u step seen hA w hw, hu, List.foldl_append]
        simp only
        exact d'.run W u step seen hA _ (by rw [hev, List.foldl_cons, List.foldl_nil, hA.seenResidual]; exact hw)
      · intro b hb
        simp only [evalCosts] at hb; rw [hu] at hb
        rw [hev, d'.ok _ hb]; rfl
      · intro e' hb hf
        simp only [evalCosts] at hb; rw [hu] at hb
        exact last_append (d'.user _ hb hf)

theorem evalEqs_did (env : Env n D α) (calls : List (NLSIteration α)) (x : Fin n → α) : ∀ (l : List (Residual α))
    (i : Nat) (f : α), (∀ j r, l[j]? = some r → (residualsOf env.p .equality)[i + j]? = some r) →
    ∃ ev, Did env calls (fun _ u w => evalEqsW u x i l f w) (evalEqs x l f) id
      (fun _ => callsFrom .equality false x i l) ev := by
  intro l
  induction l with
  | nil =>
    intro i f _
    exact ⟨[], fun _ _ _ _ _ _ _ => rfl, fun _ _ => rfl, fun e h => by cases h⟩
  | cons r l ih =>
    intro i f hl
    obtain ⟨ev, d⟩ := errorVector_did (env := env) calls (hl 0 r rfl) x
    cases hu : r.errorVector x r.dim with
    | error e =>
      refine ⟨ev, ?_, ?_, ?_⟩
      · intro W u step seen hA w hw
        simp only [evalEqsW, evalEqs]
        rw [show errorVectorW u .equality i r x w = _ from d.run W u step seen hA w hw, hu]
      · intro b hb; simp only [evalEqs] at hb; rw [hu] at hb; cases hb
      · intro e' hb hf
        simp only [evalEqs] at hb; rw [hu] at hb; cases hb
        exact d.user _ hu hf
    | ok v =>
      obtain ⟨ev', d'⟩ := ih (i + 1) (f + lpNorm1 v) (fun j r' hj => by
        rw [Nat.add_assoc, Nat.add_comm 1]; exact hl (j + 1) r' hj)
      have hev := d.ok _ hu
      refine ⟨ev ++ ev', ?_, ?_, ?_⟩
      · intro W u step seen hA w hw
        simp only [evalEqsW, evalEqs]
        rw [show errorVectorW u .equality i r x w = _ from d.run W u step seen hA w hw, hu, List.foldl_append]
        simp only
        exact d'.run W u step seen hA _ (by rw [hev, List.foldl_cons, List.foldl_nil, hA.seenResidual]; exact hw)
      · intro b hb
        simp only [evalEqs] at hb; rw [hu] at hb
        rw [hev, d'.ok _ hb]; rfl
      · intro e' hb hf
        simp only [evalEqs] at hb; rw [hu] at hb
        exact last_append (d'.user _ hb hf)

/-! ## Linearising and evaluating -/

omit [Scalar α] in
theorem seen_after {W : Type} {env : Env n D α} {u : World W n D α} {step : W → UserCall n D α → W}
    {seen : W → List (NLSIteration α)} (hA : AnswersLike env u step seen) {ev : List (UserCall n D α)} {w : W}
    {calls : List (NLSIteration α)} (hw : seen w = calls) (h : ev.filterMap callbackOf = []) :
    seen (ev.foldl step w) = calls := by
  rw [seen_foldl hA, h, List.append_nil, hw]

theorem residualCalls_quiet (p : Problem D α) (jac : Bool) (x : Fin n → α) :
    (residualCalls p jac x).filterMap callbackOf = [] := by
  rw [residualCalls_eq, List.filterMap_append, noCallback_from, noCallback_from]; rfl

theorem linearize_did (env : Env n D α) (calls : List (NLSIteration α)) (x : Fin n → α) (lambda : α)
    (qp : QPData D env.p.M env.p.K α) :
    ∃ ev, Did env calls (fun _ u w => linearizeW u env.p x lambda qp w) (linearize env.p x lambda qp) (fun e => e.1)
      (fun _ => residualCalls env.p true x) ev := by
  obtain ⟨ev, d⟩ := linCosts_did env calls x env.p.costs 0 (fun _ _ => 0) (fun _ => 0) 0
    (fun j r hj => by rw [Nat.zero_add]; exact hj)
  cases hc : linCosts x env.p.costs (fun (_ _ : Fin D) => (0 : α)) (fun _ => 0) 0 with
  | error e =>
    obtain ⟨e, G, c⟩ := e
    refine ⟨ev, ?_, ?_, ?_⟩
    · intro W u step seen hA w hw
      simp only [linearizeW, linearize]
      rw [show linCostsW u x 0 env.p.costs (fun _ _ => 0) (fun _ => 0) 0 w = _ from d.run W u step seen hA w hw, hc]
    · intro b hb; simp only [linearize] at hb; rw [hc] at hb; cases hb
    · intro e' hb hf
      simp only [linearize] at hb; rw [hc] at hb; cases hb
      exact d.user _ hc hf
  | ok res =>
    obtain ⟨G, c, f⟩ := res
    have hev := d.ok _ hc
    obtain ⟨ev', d'⟩ := linEqs_did env calls (K := env.p.K) x env.p.eqs 0 0 (fun _ _ => 0) (fun _ => 0) 0
      (fun j r hj => by rw [Nat.zero_add]; exact hj)
    have run2 : ∀ (W : Type) (u : World W n D α) (step : W → UserCall n D α → W) (seen : W → List (NLSIteration α)),
        AnswersLike env u step seen → ∀ w, seen w = calls →
        linEqsW u x 0 env.p.eqs 0 (fun (_ : Fin env.p.K) (_ : Fin D) => (0 : α)) (fun _ => 0) 0 (ev.foldl step w) =
          ((ev ++ ev').foldl step w,
            linEqs x env.p.eqs 0 (fun (_ : Fin env.p.K) (_ : Fin D) => (0 : α)) (fun _ => 0) 0) := by
      intro W u step seen hA w hw
      rw [List.foldl_append]
      exact d'.run W u step seen hA _ (seen_after hA hw (by rw [hev, noCallback_from]))
    cases he : linEqs x env.p.eqs 0 (fun (_ : Fin env.p.K) (_ : Fin D) => (0 : α)) (fun _ => 0) 0 with
    | error e =>
      obtain ⟨e, A, b⟩ := e
      refine ⟨ev ++ ev', ?_, ?_, ?_⟩
      · intro W u step seen hA w hw
        simp only [linearizeW, linearize]
        rw [show linCostsW u x 0 env.p.costs (fun _ _ => 0) (fun _ => 0) 0 w = _ from d.run W u step seen hA w hw, hc]
        simp only
        rw [run2 W u step seen hA w hw, he]
      · intro b hb; simp only [linearize] at hb; rw [hc] at hb; simp only at hb; rw [he] at hb; cases hb
      · intro e' hb hf
        simp only [linearize] at hb; rw [hc] at hb; simp only at hb; rw [he] at hb; cases hb
        exact last_append (d'.user _ he hf)
    | ok res =>
      obtain ⟨A, b, err⟩ := res
      refine ⟨ev ++ ev', ?_, ?_, ?_⟩
      · intro W u step seen hA w hw
        simp only [linearizeW, linearize]
        rw [show linCostsW u x 0 env.p.costs (fun _ _ => 0) (fun _ => 0) 0 w = _ from d.run W u step seen hA w hw, hc]
        simp only
        rw [run2 W u step seen hA w hw, he]
        simp only
        cases shiftLoop x env.p.ineq <;> rfl
      · intro r hr
        rw [hev, d'.ok _ he, residualCalls_eq]
      · intro e' hb hf
        simp only [linearize] at hb; rw [hc] at hb; simp only at hb; rw [he] at hb; simp only at hb
        cases hs : shiftLoop x env.p.ineq with
        | ok con => rw [hs] at hb; cases hb
        | error e =>
          rw [hs] at hb; cases hb
          exact absurd hf (shiftLoop_fault x _ _ hs)

theorem evalErrors_did (env : Env n D α) (calls : List (NLSIteration α)) (x : Fin n → α) :
    ∃ ev, Did env calls (fun _ u w => evalErrorsW u env.p x w) (evalErrors env.p x) id
      (fun _ => residualCalls env.p false x) ev := by
  obtain ⟨ev, d⟩ := evalCosts_did env calls x env.p.costs 0 0 (fun j r hj => by rw [Nat.zero_add]; exact hj)
  cases hc : evalCosts x env.p.costs (0 : α) with
  | error e =>
    refine ⟨ev, ?_, ?_, ?_⟩
    · intro W u step seen hA w hw
      simp only [evalErrorsW, evalErrors]
      rw [show evalCostsW u x 0 env.p.costs 0 w = _ from d.run W u step seen hA w hw, hc]
    · intro b hb; simp only [evalErrors] at hb; rw [hc] at hb; cases hb
    · intro e' hb hf
      simp only [evalErrors] at hb; rw [hc] at hb; cases hb
      exact d.user _ hc hf
  | ok f =>
    have hev := d.ok _ hc
    obtain ⟨ev', d'⟩ := evalEqs_did env calls x env.p.eqs 0 0 (fun j r hj => by rw [Nat.zero_add]; exact hj)
    refine ⟨ev ++ ev', ?_, ?_, ?_⟩
    · intro W u step seen hA w hw
      simp only [evalErrorsW, evalErrors]
      rw [show evalCostsW u x 0 env.p.costs 0 w = _ from d.run W u step seen hA w hw, hc]
      simp only
      rw [show evalEqsW u x 0 env.p.eqs 0 (ev.foldl step w) = _ from
        d'.run W u step seen hA _ (seen_after hA hw (by rw [hev, noCallback_from])), List.foldl_append]
      cases evalEqs x env.p.eqs (0 : α) <;> rfl
    · intro b hb
      simp only [evalErrors] at hb; rw [hc] at hb; simp only at hb
      cases he : evalEqs x env.p.eqs (0 : α) with
      | error e => rw [he] at hb; cases hb
      | ok q => rw [hev, d'.ok _ he, residualCalls_eq]
    · intro e' hb hf
      simp only [evalErrors] at hb; rw [hc] at hb; simp only at hb
      cases he : evalEqs x env.p.eqs (0 : α) with
      | error e => rw [he] at hb; cases hb; exact last_append (d'.user _ he hf)
      | ok q => rw [he] at hb; cases hb

theorem retract_did (env : Env n D α) (calls : List (NLSIteration α)) (x : Fin n → α) (dx : Fin D → α) (a : α) :
    ∃ ev, Did env calls (fun _ u w => retractW u env x dx a w) (retract env x dx a) id
      (fun _ => if env.retraction.isSome then [.retraction x dx a] else []) ev ∧
      ∀ y, retract env x dx a = .ok y → y = movedBy env x dx a := by
  cases hr : env.retraction with
  | some R =>
    refine ⟨[.retraction x dx a], ⟨?_, fun _ _ => by simp, ?_⟩, ?_⟩
    · intro W u step seen hA w _
      unfold retractW retract
      simp only [hr, hA.retraction R hr w x dx a]
      cases env.retractionThrows x dx a <;> rfl
    · intro e he _
      refine ⟨_, rfl, ?_⟩
      unfold retract at he
      simp only [hr] at he
      split_ifs at he with ht
      exact ht
    · intro y hy
      unfold retract at hy
      simp only [hr] at hy
      split_ifs at hy
      cases hy
      simp only [movedBy, hr]
  | none =>
    refine ⟨[], ⟨?_, fun _ _ => by simp, ?_⟩, ?_⟩
    · intro W u step seen hA w _
      unfold retractW retract
      simp only [hr]
      split_ifs <;> rfl
    · intro e he hf
      unfold retract at he
      simp only [hr] at he
      split_ifs at he
      cases he; cases hf
    · intro y hy
      unfold retract at hy
      simp only [hr] at hy
      split_ifs at hy with h
      cases hy
      simp only [movedBy, hr, dif_pos h]

/-! ## The line search -/

theorem trialCalls_quiet (env : Env n D α) (x : Fin n → α) (dx : Fin D → α) (a : α) :
    (trialCalls env x dx a).filterMap callbackOf = [] := by
  unfold trialCalls
  rw [List.filterMap_append, residualCalls_quiet]
  cases env.retraction <;> rfl

theorem trials_quiet (env : Env n D α) (x : Fin n → α) (dx : Fin D → α) : ∀ l : List (LineSearchStep α),
    (l.flatMap fun st => trialCalls env x dx st.alpha).filterMap callbackOf = [] := by
  intro l
  induction l with
  | nil => rfl
  | cons s l ih => rw [List.flatMap_cons, List.filterMap_append, trialCalls_quiet, ih]; rfl

theorem nextAlpha_fault {st : LineSearchStrategy} {tau : α} {iter : Nat} {pre : Errors α}
    {d : DirectionalDerivatives α} {pen alpha : α} {steps : List (LineSearchStep α)} {e : Fault}
    (h : nextAlpha st tau iter pre d pen alpha steps = .error e) : e ≠ .user := by
  unfold nextAlpha at h
  cases st with
  | armijoBacktrack => simp only at h; split_ifs at h
  | polynomialApproximation =>
    simp only at h
    split_ifs at h
    · split at h
      · rename_i e' hp
        cases h
        unfold polyAlpha at hp
        split_ifs at hp
        all_goals first
          | (cases hp; exact fun h => by cases h)
          | (split at hp
             all_goals first
               | (cases hp; done)
               | (cases hp; exact fun h => by cases h)
               | (split at hp
                  · rename_i hc
                    cases hp
                    unfold cubicApproxCoeffs at hc
                    split_ifs at hc
                    all_goals (cases hc; exact fun h => by cases h)
                  · cases hp))
      · cases h
      · split_ifs at h

theorem lsLoop_did (env : Env n D α) (calls : List (NLSIteration α)) (prm : NLSParams α) (x : Fin n → α)
    (dx : Fin D → α) (pre : Errors α) (d : DirectionalDerivatives α) (pen : α) :
    ∀ (fuel iter : Nat) (alpha : α) (steps : List (LineSearchStep α)) (cand : Fin n → α),
    ∃ ev, Did env calls (fun _ u w => lsLoopW u env prm x dx pre d pen fuel iter alpha steps cand w)
      (lsLoop env prm x dx pre d pen fuel iter alpha steps cand) (fun e => e.1)
      (fun r => (r.2.1.drop steps.length).flatMap fun st => trialCalls env x dx st.alpha) ev ∧
      ∀ r, lsLoop env prm x dx pre d pen fuel iter alpha steps cand = .ok r → ∃ l, r.2.1 = steps ++ l := by
  intro fuel
  induction fuel with
  | zero =>
    intro iter alpha steps cand
    refine ⟨[], ⟨fun _ _ _ _ _ _ _ => rfl, ?_, ?_⟩, ?_⟩
    · intro r hr; simp only [lsLoop] at hr; cases hr; simp
    · intro e h _; simp only [lsLoop] at h; cases h
    · intro r hr; simp only [lsLoop] at hr; cases hr; exact ⟨[], by simp⟩
  | succ fuel ih =>
    intro iter alpha steps cand
    cases hn : nextAlpha prm.lineSearchStrategy prm.armijoSearchTau iter pre d pen alpha steps with
    | error e =>
      refine ⟨[], ⟨?_, ?_, ?_⟩, ?_⟩
      · intro W u step seen hA w hw
        simp only [lsLoopW, lsLoop]; rw [hn]; rfl
      · intro r hr; simp only [lsLoop] at hr; rw [hn] at hr; cases hr
      · intro e' h hf; simp only [lsLoop] at h; rw [hn] at h; cases h; exact absurd hf (nextAlpha_fault hn)
      · intro r hr; simp only [lsLoop] at hr; rw [hn] at hr; cases hr
    | ok oa =>
      cases oa with
      | none =>
        refine ⟨[], ⟨?_, ?_, ?_⟩, ?_⟩
        · intro W u step seen hA w hw
          simp only [lsLoopW, lsLoop]; rw [hn]; rfl
        · intro r hr; simp only [lsLoop] at hr; rw [hn] at hr; cases hr; simp
        · intro e' h hf; simp only [lsLoop] at h; rw [hn] at h; cases h
        · intro r hr; simp only [lsLoop] at hr; rw [hn] at hr; cases hr; exact ⟨[], by simp⟩
      | some a =>
        obtain ⟨ev1, d1, hm⟩ := retract_did env calls x dx a
        cases hr : retract env x dx a with
        | error e =>
          refine ⟨ev1, ⟨?_, ?_, ?_⟩, ?_⟩
          · intro W u step seen hA w hw
            simp only [lsLoopW, lsLoop]; rw [hn]
            simp only
            rw [show retractW u env x dx a w = _ from d1.run W u step seen hA w hw, hr]
          · intro r h; simp only [lsLoop] at h; rw [hn] at h; simp only at h; rw [hr] at h; cases h
          · intro e' h hf; simp only [lsLoop] at h; rw [hn] at h; simp only at h; rw [hr] at h; cases h
            exact d1.user _ hr hf
          · intro r h; simp only [lsLoop] at h; rw [hn] at h; simp only at h; rw [hr] at h; cases h
        | ok cand' =>
          have h1 := d1.ok _ hr
          have hc' : cand' = movedBy env x dx a := hm _ hr
          have hq1 : ev1.filterMap callbackOf = [] := by
            rw [h1]; cases env.retraction <;> rfl
          obtain ⟨ev2, d2⟩ := evalErrors_did env calls cand'
          have run2 : ∀ (W : Type) (u : World W n D α) (step : W → UserCall n D α → W)
              (seen : W → List (NLSIteration α)), AnswersLike env u step seen → ∀ w, seen w = calls →
              evalErrorsW u env.p cand' (ev1.foldl step w) = ((ev1 ++ ev2).foldl step w, evalErrors env.p cand') := by
            intro W u step seen hA w hw
            rw [List.foldl_append]
            exact d2.run W u step seen hA _ (seen_after hA hw hq1)
          cases he : evalErrors env.p cand' with
          | error e =>
            refine ⟨ev1 ++ ev2, ⟨?_, ?_, ?_⟩, ?_⟩
            · intro W u step seen hA w hw
              simp only [lsLoopW, lsLoop]; rw [hn]
              simp only
              rw [show retractW u env x dx a w = _ from d1.run W u step seen hA w hw, hr]
              simp only
              rw [run2 W u step seen hA w hw, he]
            · intro r h; simp only [lsLoop] at h; rw [hn] at h; simp only at h; rw [hr] at h; simp only at h
              rw [he] at h; cases h
            · intro e' h hf; simp only [lsLoop] at h; rw [hn] at h; simp only at h; rw [hr] at h; simp only at h
              rw [he] at h; cases h
              exact last_append (d2.user _ he hf)
            · intro r h; simp only [lsLoop] at h; rw [hn] at h; simp only at h; rw [hr] at h; simp only at h
              rw [he] at h; cases h
          | ok es =>
            have h2 : ev1 ++ ev2 = trialCalls env x dx a := by
              rw [h1, d2.ok _ he, hc']; rfl
            obtain ⟨ev3, d3, hl3⟩ := ih (iter + 1) a (steps ++ [⟨a, es⟩]) cand'
            have run3 : ∀ (W : Type) (u : World W n D α) (step : W → UserCall n D α → W)
                (seen : W → List (NLSIteration α)), AnswersLike env u step seen → ∀ w, seen w = calls →
                lsLoopW u env prm x dx pre d pen fuel (iter + 1) a (steps ++ [⟨a, es⟩]) cand' ((ev1 ++ ev2).foldl step w)
                  = ((ev1 ++ ev2 ++ ev3).foldl step w,
                    lsLoop env prm x dx pre d pen fuel (iter + 1) a (steps ++ [⟨a, es⟩]) cand') := by
              intro W u step seen hA w hw
              rw [List.foldl_append (l := ev1 ++ ev2)]
              exact d3.run W u step seen hA _ (seen_after hA hw (by rw [h2, trialCalls_quiet]))
            have hW : ∀ (W : Type) (u : World W n D α) (step : W → UserCall n D α → W)
                (seen : W → List (NLSIteration α)), AnswersLike env u step seen → ∀ w, seen w = calls →
                lsLoopW u env prm x dx pre d pen (fuel + 1) iter alpha steps cand w =
                  if es.containsInvalid then ((ev1 ++ ev2).foldl step w, .ok (.failureNonFiniteCost, steps ++ [⟨a, es⟩], cand'))
                  else if d.lInfinity < prm.absoluteFirstDerivativeTol then
                    ((ev1 ++ ev2).foldl step w, .ok (.firstOrderSatisfied, steps ++ [⟨a, es⟩], cand'))
                  else if 0 < d.total pen then
                    ((ev1 ++ ev2).foldl step w, .ok (.positiveDerivative, steps ++ [⟨a, es⟩], cand'))
                  else if es.total pen ≤ pre.total pen + d.total pen * a * armijoC1 then
                    ((ev1 ++ ev2).foldl step w, .ok (.success, steps ++ [⟨a, es⟩], cand'))
                  else ((ev1 ++ ev2 ++ ev3).foldl step w,
                    lsLoop env prm x dx pre d pen fuel (iter + 1) a (steps ++ [⟨a, es⟩]) cand') := by
              intro W u step seen hA w hw
              simp only [lsLoopW]; rw [hn]
              simp only
              rw [show retractW u env x dx a w = _ from d1.run W u step seen hA w hw, hr]
              simp only
              rw [run2 W u step seen hA w hw, he]
              simp only
              rw [run3 W u step seen hA w hw]
            have hL : lsLoop env prm x dx pre d pen (fuel + 1) iter alpha steps cand =
                  if es.containsInvalid then .ok (.failureNonFiniteCost, steps ++ [⟨a, es⟩], cand')
                  else if d.lInfinity < prm.absoluteFirstDerivativeTol then
                    .ok (.firstOrderSatisfied, steps ++ [⟨a, es⟩], cand')
                  else if 0 < d.total pen then .ok (.positiveDerivative, steps ++ [⟨a, es⟩], cand')
                  else if es.total pen ≤ pre.total pen + d.total pen * a * armijoC1 then
                    .ok (.success, steps ++ [⟨a, es⟩], cand')
                  else lsLoop env prm x dx pre d pen fuel (iter + 1) a (steps ++ [⟨a, es⟩]) cand' := by
              simp only [lsLoop]; rw [hn]
              simp only
              rw [hr]
              simp only
              rw [he]
            have hone : (((steps ++ [⟨a, es⟩] : List (LineSearchStep α)).drop steps.length).flatMap
                fun st => trialCalls env x dx st.alpha) = ev1 ++ ev2 := by
              rw [List.drop_left, h2]; simp
            rw [hL]
            have stop : ∀ res : StepResult, (∀ (W : Type) (u : World W n D α) (step : W → UserCall n D α → W)
                (seen : W → List (NLSIteration α)), AnswersLike env u step seen → ∀ w, seen w = calls →
                lsLoopW u env prm x dx pre d pen (fuel + 1) iter alpha steps cand w =
                  ((ev1 ++ ev2).foldl step w, .ok (res, steps ++ [⟨a, es⟩], cand'))) →
                ∃ ev, Did env calls (fun _ u w => lsLoopW u env prm x dx pre d pen (fuel + 1) iter alpha steps cand w)
                  (.ok (res, steps ++ [⟨a, es⟩], cand')) (fun e => e.1)
                  (fun r => (r.2.1.drop steps.length).flatMap fun st => trialCalls env x dx st.alpha) ev ∧
                  ∀ r, (Except.ok (res, steps ++ [⟨a, es⟩], cand') : Except (Fault × List (LineSearchStep α) × (Fin n → α)) _)
                    = .ok r → ∃ l, r.2.1 = steps ++ l := by
              intro res hrun
              refine ⟨ev1 ++ ev2, ⟨hrun, ?_, fun e h => by cases h⟩, ?_⟩
              · intro r h; cases h; exact hone.symm
              · intro r h; cases h; exact ⟨_, rfl⟩
            by_cases c1 : es.containsInvalid
            · rw [if_pos c1]
              exact stop _ fun W u step seen hA w hw => by rw [hW W u step seen hA w hw, if_pos c1]
            rw [if_neg c1]
            by_cases c2 : d.lInfinity < prm.absoluteFirstDerivativeTol
            · rw [if_pos c2]
              exact stop _ fun W u step seen hA w hw => by rw [hW W u step seen hA w hw, if_neg c1, if_pos c2]
            rw [if_neg c2]
            by_cases c3 : 0 < d.total pen
            · rw [if_pos c3]
              exact stop _ fun W u step seen hA w hw => by
                rw [hW W u step seen hA w hw, if_neg c1, if_neg c2, if_pos c3]
            rw [if_neg c3]
            by_cases c4 : es.total pen ≤ pre.total pen + d.total pen * a * armijoC1
            · rw [if_pos c4]
              exact stop _ fun W u step seen hA w hw => by
                rw [hW W u step seen hA w hw, if_neg c1, if_neg c2, if_neg c3, if_pos c4]
            rw [if_neg c4]
            refine ⟨ev1 ++ ev2 ++ ev3, ⟨?_, ?_, ?_⟩, ?_⟩
            · intro W u step seen hA w hw
              rw [hW W u step seen hA w hw, if_neg c1, if_neg c2, if_neg c3, if_neg c4]
            · intro r h
              obtain ⟨l, hl⟩ := hl3 r h
              have h3 : ev3 = (r.2.1.drop (steps ++ [⟨a, es⟩] : List (LineSearchStep α)).length).flatMap fun st => trialCalls env x dx st.alpha :=
                d3.ok r h
              rw [hl, List.drop_left] at h3
              show _ = (r.2.1.drop steps.length).flatMap fun st => trialCalls env x dx st.alpha
              rw [hl, List.append_assoc steps, List.drop_left, h3, h2]
              simp
            · intro e h hf
              exact last_append (d3.user e h hf)
            · intro r h
              obtain ⟨l, hl⟩ := hl3 r h
              exact ⟨[⟨a, es⟩] ++ l, by rw [hl, List.append_assoc]⟩

theorem selectStepSize_did (env : Env n D α) (calls : List (NLSIteration α)) (prm : NLSParams α) (pre : Errors α)
    (d : DirectionalDerivatives α) (pen : α) (o : env.Obj) :
    ∃ ev, Did env calls (fun _ u w => selectStepSizeW u env prm pre d pen o w) (selectStepSize env prm pre d pen o)
      (fun e => e.1) (fun r => r.1.steps.flatMap fun st => trialCalls env o.vars o.dx st.alpha) ev := by
  unfold selectStepSize selectStepSizeW
  by_cases c1 : 0 < pen
  · by_cases c2 : pre.containsInvalid
    · simp only [c1, c2, not_true_eq_false, if_false, if_true]
      exact ⟨[], fun _ _ _ _ _ _ _ => rfl, fun b h => (by cases h), fun e h hf => (by cases h; cases hf)⟩
    · simp only [c1, c2, not_true_eq_false, if_false]
      obtain ⟨ev, dd, -⟩ := lsLoop_did env calls prm o.vars o.dx pre d pen (prm.maxLineSearchIterations + 1).toNat 0 1 []
        o.cand
      refine ⟨ev, ?_, ?_, ?_⟩
      · intro W u step seen hA w hw
        rw [show lsLoopW u env prm o.vars o.dx pre d pen (prm.maxLineSearchIterations + 1).toNat 0 1 [] o.cand w = _ from
          dd.run W u step seen hA w hw]
        cases lsLoop env prm o.vars o.dx pre d pen (prm.maxLineSearchIterations + 1).toNat 0 1 [] o.cand <;> rfl
      · intro b hb
        cases hl : lsLoop env prm o.vars o.dx pre d pen (prm.maxLineSearchIterations + 1).toNat 0 1 [] o.cand with
        | error e => rw [hl] at hb; cases hb
        | ok r => rw [hl] at hb; cases hb; exact dd.ok _ hl
      · intro e hb hf
        cases hl : lsLoop env prm o.vars o.dx pre d pen (prm.maxLineSearchIterations + 1).toNat 0 1 [] o.cand with
        | error e => rw [hl] at hb; cases hb; exact dd.user _ hl hf
        | ok r => rw [hl] at hb; cases hb
  · simp only [c1, not_false_eq_true, if_true]
    exact ⟨[], fun _ _ _ _ _ _ _ => rfl, fun b h => (by cases h), fun e h hf => (by cases h; cases hf)⟩

/-! ## One pass -/

omit [Scalar α] in
theorem checkIndices_fault (N : Nat) : ∀ (l : List (Ineq α)) (e : Fault), checkIndices N l = .error e → e ≠ .user := by
  intro l
  induction l with
  | nil => intro e h; cases h
  | cons c cs ih =>
    intro e h
    simp only [checkIndices] at h
    split_ifs at h
    · exact ih e h
    · cases h; exact fun h => by cases h

theorem qpCheckParams_fault (prm : QPParams α) (e : Fault) (h : MiniOpt.checkParams prm = .error e) : e ≠ .user := by
  unfold MiniOpt.checkParams at h
  split_ifs at h <;> (cases h; exact fun h => by cases h)

theorem nsSolve_fault {m K : Nat} {E : NSEigen α} {p : QP m 0 K α} {st : NSState m α} {e : Fault × NSState m α}
    (h : NS.solve E p st = .error e) : e.1 ≠ .user := by
  unfold NS.solve at h
  dsimp only at h
  by_cases h0 : 0 < K
  · rw [if_neg (not_not.mpr h0)] at h
    by_cases h1 : K ≤ m
    · rw [dif_pos h1] at h
      split_ifs at h
      · cases h; exact fun h => by cases h
      · split at h <;> cases h
    · rw [dif_neg h1] at h; cases h; exact fun h => by cases h
  · rw [if_pos h0] at h; cases h; exact fun h => by cases h

theorem stepDirection_fault {env : Env n D α} {prm : NLSParams α} {o : env.Obj} {e : Fault × env.Obj}
    (h : stepDirection env prm o = .error e) : e.1 ≠ .user := by
  unfold stepDirection at h
  dsimp only at h
  split at h
  · split at h
    · rename_i hc
      cases h
      exact checkIndices_fault _ _ _ hc
    · split_ifs at h
      · split at h
        · rename_i hs
          cases h
          cases hp : MiniOpt.checkParams (qpParams env.p prm) with
          | error e' =>
            unfold IP.solve at hs
            rw [hp] at hs
            cases hs
            exact qpCheckParams_fault _ _ hp
          | ok u =>
            rcases solve_faults hp hs with h | h | h <;> (rw [h]; exact fun h => by cases h)
        · cases h
      · cases h; exact fun h => by cases h
  · split at h
    · rename_i hs
      cases h
      exact nsSolve_fault hs
    · cases h
    · cases h

theorem updateLambda_fault {env : Env n D α} {prm : NLSParams α} {res : StepResult} {pre : Errors α}
    {pen lambda : α} {o : env.Obj} {e : Fault × env.Obj}
    (h : updateLambda env prm res pre pen lambda o = .error e) : e.1 ≠ .user := by
  unfold updateLambda at h
  split at h
  · split at h
    · cases h; exact fun h => by cases h
    · cases h
  all_goals cases h

/-- The calls of one pass, given its outcome. -/
def passCalls (env : Env n D α) (s : Loop env) (r : Loop env × Option NLSTermination) : List (UserCall n D α) :=
  match r.1.log.drop s.log.length with
  | [it] => iterationCalls env s.obj.vars r.1.obj.dx it
  | _ => residualCalls env.p true s.obj.vars

theorem body_did (env : Env n D α) (prm : NLSParams α) (iter : Nat) (s : Loop env) :
    ∃ ev, Did env s.calls (fun _ u w => bodyW u env prm iter s w) (body env prm iter s) (fun e => e.1)
      (passCalls env s) ev ∧
      ∀ r, body env prm iter s = .ok r → r.1.calls = s.calls ++ (passCalls env s r).filterMap callbackOf := by
  obtain ⟨ev1, d1⟩ := linearize_did env s.calls s.obj.vars s.lambda s.obj.qp
  cases h1 : linearize env.p s.obj.vars s.lambda s.obj.qp with
  | error e =>
    obtain ⟨e, qp⟩ := e
    refine ⟨ev1, ⟨?_, ?_, ?_⟩, ?_⟩
    · intro W u step seen hA w hw
      simp only [bodyW, body]
      rw [show linearizeW u env.p s.obj.vars s.lambda s.obj.qp w = _ from d1.run W u step seen hA w hw, h1]
    · intro r hr; simp only [body] at hr; rw [h1] at hr; cases hr
    · intro e' hr hf; simp only [body] at hr; rw [h1] at hr; cases hr; exact d1.user _ h1 hf
    · intro r hr; simp only [body] at hr; rw [h1] at hr; cases hr
  | ok res =>
    obtain ⟨qp, pre⟩ := res
    have e1 := d1.ok _ h1
    cases h2 : stepDirection env prm { s.obj with qp := qp } with
    | error e =>
      refine ⟨ev1, ⟨?_, ?_, ?_⟩, ?_⟩
      · intro W u step seen hA w hw
        simp only [bodyW, body]
        rw [show linearizeW u env.p s.obj.vars s.lambda s.obj.qp w = _ from d1.run W u step seen hA w hw, h1]
        simp only
        rw [h2]
      · intro r hr; simp only [body] at hr; rw [h1] at hr; simp only at hr; rw [h2] at hr; cases hr
      · intro e' hr hf; simp only [body] at hr; rw [h1] at hr; simp only at hr; rw [h2] at hr; cases hr
        exact absurd hf (stepDirection_fault h2)
      · intro r hr; simp only [body] at hr; rw [h1] at hr; simp only at hr; rw [h2] at hr; cases hr
    | ok res =>
      obtain ⟨o1, out⟩ := res
      have hf := stepDirection_frame h2
      have v1 : o1.vars = s.obj.vars := by have e := congrArg Obj.vars hf; exact e
      by_cases hind : wasIndefinite out = true
      · refine ⟨ev1, ⟨?_, ?_, ?_⟩, ?_⟩
        · intro W u step seen hA w hw
          simp only [bodyW, body]
          rw [show linearizeW u env.p s.obj.vars s.lambda s.obj.qp w = _ from d1.run W u step seen hA w hw, h1]
          simp only
          rw [h2]
          simp only
          rw [if_pos hind, if_pos hind]
        · intro r hr; simp only [body] at hr; rw [h1] at hr; simp only at hr; rw [h2] at hr; simp only at hr
          rw [if_pos hind] at hr; cases hr
          simp only [passCalls, List.drop_length]
          exact e1
        · intro e' hr hf; simp only [body] at hr; rw [h1] at hr; simp only at hr; rw [h2] at hr; simp only at hr
          rw [if_pos hind] at hr; cases hr
        · intro r hr; simp only [body] at hr; rw [h1] at hr; simp only at hr; rw [h2] at hr; simp only at hr
          rw [if_pos hind] at hr; cases hr
          simp only [passCalls, List.drop_length, residualCalls_quiet, List.append_nil]
      · obtain ⟨ev3, d3⟩ := selectStepSize_did env s.calls prm pre (costDerivative o1.qp o1.dx)
          (raisePenalty env.p prm o1.qp o1.dx out s.penalty) o1
        have q1 : ev1.filterMap callbackOf = [] := by rw [e1, residualCalls_quiet]
        have run3 : ∀ (W : Type) (u : World W n D α) (step : W → UserCall n D α → W)
            (seen : W → List (NLSIteration α)), AnswersLike env u step seen → ∀ w, seen w = s.calls →
            selectStepSizeW u env prm pre (costDerivative o1.qp o1.dx)
              (raisePenalty env.p prm o1.qp o1.dx out s.penalty) o1 (ev1.foldl step w) =
              ((ev1 ++ ev3).foldl step w, selectStepSize env prm pre (costDerivative o1.qp o1.dx)
                (raisePenalty env.p prm o1.qp o1.dx out s.penalty) o1) := by
          intro W u step seen hA w hw
          rw [List.foldl_append]
          exact d3.run W u step seen hA _ (seen_after hA hw q1)
        cases h3 : selectStepSize env prm pre (costDerivative o1.qp o1.dx)
            (raisePenalty env.p prm o1.qp o1.dx out s.penalty) o1 with
        | error e =>
          refine ⟨ev1 ++ ev3, ⟨?_, ?_, ?_⟩, ?_⟩
          · intro W u step seen hA w hw
            simp only [bodyW, body]
            rw [show linearizeW u env.p s.obj.vars s.lambda s.obj.qp w = _ from d1.run W u step seen hA w hw, h1]
            simp only
            rw [h2]
            simp only
            rw [if_neg hind, if_neg hind, run3 W u step seen hA w hw, h3]
          · intro r hr; simp only [body] at hr; rw [h1] at hr; simp only at hr; rw [h2] at hr; simp only at hr
            rw [if_neg hind, h3] at hr; cases hr
          · intro e' hr hf; simp only [body] at hr; rw [h1] at hr; simp only at hr; rw [h2] at hr; simp only at hr
            rw [if_neg hind, h3] at hr; cases hr
            exact last_append (d3.user _ h3 hf)
          · intro r hr; simp only [body] at hr; rw [h1] at hr; simp only at hr; rw [h2] at hr; simp only at hr
            rw [if_neg hind, h3] at hr; cases hr
        | ok res =>
          obtain ⟨o2, res⟩ := res
          have e3 := d3.ok _ h3
          obtain ⟨-, -, -, ho2⟩ := selectStepSize_ok h3
          have dx2 : o2.dx = o1.dx := by have e := congrArg Obj.dx ho2; exact e
          cases h4 : updateLambda env prm res pre (raisePenalty env.p prm o1.qp o1.dx out s.penalty) s.lambda o2 with
          | error e =>
            refine ⟨ev1 ++ ev3, ⟨?_, ?_, ?_⟩, ?_⟩
            · intro W u step seen hA w hw
              simp only [bodyW, body]
              rw [show linearizeW u env.p s.obj.vars s.lambda s.obj.qp w = _ from d1.run W u step seen hA w hw, h1]
              simp only
              rw [h2]
              simp only
              rw [if_neg hind, if_neg hind, run3 W u step seen hA w hw, h3]
              simp only
              rw [h4]
            · intro r hr; simp only [body] at hr; rw [h1] at hr; simp only at hr; rw [h2] at hr; simp only at hr
              rw [if_neg hind, h3] at hr; simp only at hr; rw [h4] at hr; cases hr
            · intro e' hr hf; simp only [body] at hr; rw [h1] at hr; simp only at hr; rw [h2] at hr; simp only at hr
              rw [if_neg hind, h3] at hr; simp only at hr; rw [h4] at hr; cases hr
              exact absurd hf (updateLambda_fault h4)
            · intro r hr; simp only [body] at hr; rw [h1] at hr; simp only at hr; rw [h2] at hr; simp only at hr
              rw [if_neg hind, h3] at hr; simp only at hr; rw [h4] at hr; cases hr
          | ok res' =>
            obtain ⟨o3, lam, ex⟩ := res'
            obtain ⟨ho3, -, -, -⟩ := updateLambda_ok h4
            have dx3 : o3.dx = o1.dx := (show _ = _ by have e := congrArg Obj.dx ho3; exact e).trans dx2
            have st3 : o3.steps = o2.steps := by have e := congrArg Obj.steps ho3; exact e
            have hb := body_eq (iter := iter) (s := s) h1 h2 hind h3 h4
            have hcalls : ev1 ++ ev3 ++ (if env.callback.isSome then
                [UserCall.callback (entry env prm iter s.lambda s.penalty pre out o1 o3 res)] else [])
                = iterationCalls env s.obj.vars o3.dx (entry env prm iter s.lambda s.penalty pre out o1 o3 res) := by
              unfold iterationCalls
              rw [e1, e3, v1, dx3]
              show _ ++ List.flatMap _ o2.steps ++ _ = _ ++ List.flatMap _ o3.steps ++ _
              rw [st3]
            refine ⟨ev1 ++ ev3 ++ (if env.callback.isSome then
                [UserCall.callback (entry env prm iter s.lambda s.penalty pre out o1 o3 res)] else []), ⟨?_, ?_, ?_⟩, ?_⟩
            · intro W u step seen hA w hw
              rw [hb]
              simp only [bodyW]
              rw [show linearizeW u env.p s.obj.vars s.lambda s.obj.qp w = _ from d1.run W u step seen hA w hw, h1]
              simp only
              rw [h2]
              simp only
              rw [if_neg hind, run3 W u step seen hA w hw, h3]
              simp only
              rw [h4]
              simp only
              have hs3 : seen ((ev1 ++ ev3).foldl step w) = s.calls := seen_after hA hw (by
                rw [List.filterMap_append, q1, e3, trials_quiet]; rfl)
              have hfin : finishW u env (entry env prm iter s.lambda s.penalty pre out o1 o3 res) ex s.calls
                  ((ev1 ++ ev3).foldl step w) =
                  ((ev1 ++ ev3 ++ (if env.callback.isSome then
                    [UserCall.callback (entry env prm iter s.lambda s.penalty pre out o1 o3 res)] else [])).foldl step w,
                    if callbackFails env (entry env prm iter s.lambda s.penalty pre out o1 o3 res) s.calls then none
                    else some (finish env.callback (entry env prm iter s.lambda s.penalty pre out o1 o3 res) ex s.calls)) := by
                unfold finishW callbackFails finish
                cases hcb : env.callback with
                | none => simp
                | some cb =>
                  simp only [hA.callback cb hcb, hs3, Option.isSome_some, if_true]
                  rw [List.foldl_append (l := ev1 ++ ev3)]
                  cases env.callbackThrows (s.calls ++ [entry env prm iter s.lambda s.penalty pre out o1 o3 res])
                  · cases ex <;> rfl
                  · rfl
              unfold entry at hfin ⊢
              rw [hfin]
              split_ifs <;> rfl
            · intro r hr
              rw [hb] at hr
              obtain ⟨hcb, hr⟩ := ite_error_ok hr
              subst hr
              simp only [passCalls, List.drop_left]
              exact hcalls
            · intro e' hr hf
              rw [hb] at hr
              cases hcb : callbackFails env (entry env prm iter s.lambda s.penalty pre out o1 o3 res) s.calls with
              | false => rw [hcb] at hr; simp at hr
              | true =>
                unfold callbackFails at hcb
                cases hc : env.callback with
                | none => rw [hc] at hcb; cases hcb
                | some cb =>
                  rw [hc] at hcb
                  refine last_append ⟨_, rfl, s.calls, hcb⟩
            · intro r hr
              rw [hb] at hr
              obtain ⟨hcb, hr⟩ := ite_error_ok hr
              subst hr
              simp only [passCalls, List.drop_left]
              rw [← hcalls, List.filterMap_append, List.filterMap_append, q1, e3, trials_quiet]
              unfold finish
              cases env.callback with
              | none => simp
              | some cb => cases ex <;> rfl

/-! ## The loop -/

/-- The calls of the loop, given the outcomes of its passes. -/
def loopCalls (env : Env n D α) (prm : NLSParams α) : Nat → Nat → Loop env → List (UserCall n D α)
  | 0, _, _ => []
  | fuel + 1, iter, s =>
    match body env prm iter s with
    | .error _ => []
    | .ok (s', some t) => passCalls env s (s', some t)
    | .ok (s', none) => passCalls env s (s', none) ++ loopCalls env prm fuel (iter + 1) s'

theorem loop_did (env : Env n D α) (prm : NLSParams α) : ∀ (fuel iter : Nat) (s : Loop env),
    ∃ ev, Did env s.calls (fun _ u w => loopW u env prm fuel iter s w) (loop env prm fuel iter s) (fun e => e.1)
      (fun _ => loopCalls env prm fuel iter s) ev := by
  intro fuel
  induction fuel with
  | zero =>
    intro iter s
    exact ⟨[], fun _ _ _ _ _ _ _ => rfl, fun _ _ => rfl, fun e h => (by cases h)⟩
  | succ fuel ih =>
    intro iter s
    obtain ⟨ev, d, hc⟩ := body_did env prm iter s
    cases hb : body env prm iter s with
    | error e =>
      refine ⟨ev, ?_, ?_, ?_⟩
      · intro W u step seen hA w hw
        simp only [loopW, loop]
        rw [show bodyW u env prm iter s w = _ from d.run W u step seen hA w hw, hb]
      · intro b h; simp only [loop] at h; rw [hb] at h; cases h
      · intro e' h hf; simp only [loop] at h; rw [hb] at h; cases h; exact d.user _ hb hf
    | ok r =>
      obtain ⟨s', t⟩ := r
      cases t with
      | some t =>
        refine ⟨ev, ?_, ?_, ?_⟩
        · intro W u step seen hA w hw
          simp only [loopW, loop]
          rw [show bodyW u env prm iter s w = _ from d.run W u step seen hA w hw, hb]
        · intro b _; simp only [loopCalls]; rw [hb]; exact d.ok _ hb
        · intro e' h hf; simp only [loop] at h; rw [hb] at h; cases h
      | none =>
        obtain ⟨ev', d'⟩ := ih (iter + 1) s'
        have h1 := d.ok _ hb
        refine ⟨ev ++ ev', ?_, ?_, ?_⟩
        · intro W u step seen hA w hw
          simp only [loopW, loop]
          rw [show bodyW u env prm iter s w = _ from d.run W u step seen hA w hw, hb]
          simp only
          rw [List.foldl_append]
          refine d'.run W u step seen hA _ ?_
          rw [seen_foldl hA, hw, h1, ← hc _ hb]
        · intro b h; simp only [loop] at h; rw [hb] at h; simp only at h
          simp only [loopCalls]; rw [hb]
          simp only
          rw [h1, d'.ok _ h]
        · intro e' h hf; simp only [loop] at h; rw [hb] at h; simp only at h
          exact last_append (d'.user _ h hf)

theorem loopCalls_forward {env : Env n D α} {prm : NLSParams α} : ∀ (k fuel iter : Nat) (S : Nat → Loop env),
    (∀ j, j < k → body env prm (iter + j) (S j) = .ok (S (j + 1), none)) →
    loopCalls env prm (k + fuel) iter (S 0) =
      ((List.range k).flatMap fun j => passCalls env (S j) (S (j + 1), none)) ++
        loopCalls env prm fuel (iter + k) (S k) := by
  intro k
  induction k with
  | zero => intro fuel iter S _; simp
  | succ k ih =>
    intro fuel iter S hb
    have h0 := hb 0 (by omega)
    simp only [Nat.add_zero, Nat.zero_add] at h0
    rw [show k + 1 + fuel = (k + fuel) + 1 by omega]
    simp only [loopCalls]
    rw [h0]
    simp only
    rw [ih fuel (iter + 1) (fun j => S (j + 1)) (fun j hj => by
      have := hb (j + 1) (by omega)
      rw [show iter + 1 + j = iter + (j + 1) by omega]; exact this)]
    rw [List.range_succ_eq_map, List.flatMap_cons, List.flatMap_map, List.append_assoc,
      show iter + 1 + k = iter + (k + 1) by omega]

theorem ite_fault {P : Prop} [Decidable P] {msg : String} {r : Res Unit} {e : Fault} (hr : r = .error e → e ≠ .user)
    (h : (if ¬ P then .error (.assertion msg) else r) = .error e) : e ≠ .user := by
  by_cases hP : P
  · rw [if_neg (not_not.mpr hP)] at h; exact hr h
  · rw [if_pos hP] at h; cases h; exact fun h => by cases h

theorem nlsCheckParams_fault (prm : NLSParams α) (e : Fault) : NLS.checkParams prm = .error e → e ≠ .user := by
  unfold NLS.checkParams
  iterate 23 refine ite_fault ?_
  intro h
  cases h

/-- **C86** (calls of user code). A solve with user code that has side effects of any kind is the solve without them:
same result, and the side effects are those of one list of calls, made in order. For a solve that returns, the list is:
per logged iteration, every residual once with its Jacobian at the variables before the iteration, per logged
line-search step the custom retraction and every residual once at the point it gave, and the callback with the logged
iteration; and once more every residual with its Jacobian when the subproblem is found indefinite. If user code throws,
the call that threw is the last one. -/
theorem C86_calls (env : Env n D α) (prm : NLSParams α) (x0 : Fin n → α) (o : env.Obj) :
    ∃ made : List (UserCall n D α),
      (∀ (W : Type) (u : World W n D α) (step : W → UserCall n D α → W) (seen : W → List (NLSIteration α)),
        AnswersLike env u step seen → ∀ w, seen w = [] →
          solveW u env prm x0 o w = (made.foldl step w, solve env prm x0 o)) ∧
      (∀ o' out infos, solve env prm x0 o = .ok (o', out, infos) →
        ∃ ob : Nat → env.Obj, (∀ k, k ≤ out.iterations.length → After env prm x0 o k (ob k)) ∧
          made = (out.iterations.mapIdx fun k it => iterationCalls env (ob k).vars (ob (k + 1)).dx it).flatten ++
            (if out.termination = .qpIndefinite then residualCalls env.p true o'.vars else [])) ∧
      (∀ e, solve env prm x0 o = .error e → e.1 = .user → ∃ c, made.getLast? = some c ∧ Throwing env c) := by
  cases hp : NLS.checkParams prm with
  | error e =>
    have hs : solve env prm x0 o = .error (e, o) := by unfold solve; rw [hp]
    refine ⟨[], ?_, ?_, ?_⟩
    · intro W u step seen _ w _
      rw [hs]; unfold solveW; rw [hp]; rfl
    · intro o' out infos h; rw [hs] at h; cases h
    · intro e' h hf
      rw [hs] at h; cases h
      exact absurd hf (nlsCheckParams_fault prm e hp)
  | ok _ =>
    obtain ⟨ev, d⟩ := loop_did env prm prm.maxIterations.toNat 0 (start env prm x0 o)
    refine ⟨ev, ?_, ?_, ?_⟩
    · intro W u step seen hA w hw
      have hr : loopW u env prm prm.maxIterations.toNat 0 (start env prm x0 o) w = _ := d.run W u step seen hA w hw
      cases hl : loop env prm prm.maxIterations.toNat 0 (start env prm x0 o) with
      | error e =>
        unfold solveW solve
        rw [hp]
        simp only
        rw [hr, hl]
      | ok r =>
        unfold solveW solve
        rw [hp]
        simp only
        rw [hr, hl]
    · intro o' out infos h
      obtain ⟨S, T, P, v⟩ := solve_view h
      have hev : ev = loopCalls env prm prm.maxIterations.toNat 0 (S 0) := by
        rw [v.start]
        unfold solve at h
        rw [hp] at h
        simp only at h
        cases hl : loop env prm prm.maxIterations.toNat 0 (start env prm x0 o) with
        | error e => rw [hl] at h; cases h
        | ok r => exact d.ok _ hl
      have hm := v.prmOk.maxIterations
      have hle := v.le
      have hpass : ∀ k t, (hk : k < out.iterations.length) → passCalls env (S k) (S (k + 1), t) =
          iterationCalls env (S k).obj.vars (S (k + 1)).obj.dx out.iterations[k] := by
        intro k t hk
        unfold passCalls
        rw [v.slog k (by omega), v.slog (k + 1) (by omega)]
        rw [List.take_succ_eq_append_getElem hk]
        simp only [List.drop_left]
      have hflat : ∀ m, m ≤ out.iterations.length → ((List.range m).flatMap fun j => passCalls env (S j) (S (j + 1), none)) =
          ((out.iterations.take m).mapIdx fun k it => iterationCalls env (S k).obj.vars (S (k + 1)).obj.dx it).flatten := by
        intro m
        induction m with
        | zero => intro _; simp
        | succ m ih =>
          intro hm
          rw [List.range_succ, List.flatMap_append, ih (by omega), List.take_succ_eq_append_getElem (by omega),
            List.mapIdx_append, List.flatten_append]
          simp only [List.flatMap_singleton, List.mapIdx_cons, List.mapIdx_nil, List.flatten_singleton,
            List.length_take]
          rw [hpass m none (by omega), show 0 + min m out.iterations.length = m by omega]
      refine ⟨fun k => (S k).obj, fun k hk => (v.after k hk _).mpr rfl, ?_⟩
      have hstep : ∀ j, j < out.iterations.length → T j = none →
          body env prm (0 + j) (S j) = .ok (S (j + 1), none) := by
        intro j hj ht
        rw [Nat.zero_add, ← ht]; exact v.step j hj
      have hfull := hflat _ le_rfl
      rw [List.take_length] at hfull
      rw [hev, ← hfull]
      rcases v.stop with ⟨h1, h2, h3, -⟩ | ⟨h1, h2, h3, -⟩ | ⟨h1, h2, h3, qp, pre, o1, res, h4, h5, h6, h7⟩
      · rw [if_neg (by rw [h1]; exact fun h => by cases h), show prm.maxIterations.toNat = out.iterations.length + 0 by omega,
          loopCalls_forward _ _ _ _ fun j hj => hstep j hj (h3 j hj)]
        rfl
      · obtain ⟨m, hm'⟩ : ∃ m, out.iterations.length = m + 1 := ⟨out.iterations.length - 1, by omega⟩
        obtain ⟨f, hf⟩ : ∃ f, prm.maxIterations.toNat = m + (f + 1) := ⟨prm.maxIterations.toNat - m - 1, by omega⟩
        rw [if_neg h1, hf, loopCalls_forward _ _ _ _ fun j hj => hstep j (by omega) (v.cont j (by omega))]
        rw [hm'] at h3 ⊢
        have hb := v.step m (by omega)
        rw [show m + 1 - 1 = m by omega] at h3
        rw [h3] at hb
        simp only [loopCalls, Nat.zero_add]
        rw [hb]
        simp only
        rw [hpass m _ (by omega), List.range_succ, List.flatMap_append]
        simp only [List.flatMap_singleton, List.append_nil]
        rw [hpass m _ (by omega)]
      · obtain ⟨f, hf⟩ : ∃ f, prm.maxIterations.toNat = out.iterations.length + (f + 1) :=
          ⟨prm.maxIterations.toNat - out.iterations.length - 1, by omega⟩
        rw [if_pos h1, hf, loopCalls_forward _ _ _ _ fun j hj => hstep j hj (h3 j hj)]
        have hb : body env prm (0 + out.iterations.length) (S out.iterations.length) =
            .ok ({ S out.iterations.length with obj := o1 }, some .qpIndefinite) := by
          unfold body
          rw [h4]
          simp only
          rw [h5]
          simp only
          rw [if_pos h6]
        simp only [loopCalls]
        rw [hb]
        simp only [passCalls, List.drop_length]
        rw [h7, show o1.vars = (S out.iterations.length).obj.vars by
          have e := congrArg Obj.vars (stepDirection_frame h5); exact e]
    · intro e h hf
      unfold solve at h
      rw [hp] at h
      simp only at h
      cases hl : loop env prm prm.maxIterations.toNat 0 (start env prm x0 o) with
      | error e' => rw [hl] at h; cases h; exact d.user _ hl hf
      | ok r => rw [hl] at h; cases h

/-! ## Counting -/

section Counting

variable {W : Type} {step : W → UserCall n D α → W} {role : Role} {i : Nat} {jac : Bool} {count : W → Nat}

theorem count_from (hc : Counts step role i jac count) (role' : Role) (jac' : Bool) (x : Fin n → α) :
    ∀ (l : List (Residual α)) (i0 : Nat) (w : W), count ((callsFrom role' jac' x i0 l).foldl step w) =
      count w + if role' = role ∧ jac' = jac ∧ i0 ≤ i ∧ i < i0 + l.length then 1 else 0 := by
  intro l
  induction l with
  | nil =>
    intro i0 w
    rw [if_neg (by rintro ⟨-, -, h1, h2⟩; simp at h2; omega)]
    rfl
  | cons r l ih =>
    intro i0 w
    rw [callsFrom, List.foldl_cons, ih]
    by_cases h1 : role' = role ∧ i0 = i ∧ jac' = jac
    · rw [hc.yes w (.residual role' i0 jac' _) h1, if_neg (by rintro ⟨-, -, h, -⟩; omega),
        if_pos ⟨h1.1, h1.2.2, h1.2.1.le, by rw [List.length_cons]; omega⟩]
    · rw [hc.no w (.residual role' i0 jac' _) h1]
      congr 1
      by_cases h2 : role' = role ∧ jac' = jac ∧ i0 + 1 ≤ i ∧ i < i0 + 1 + l.length
      · rw [if_pos h2, if_pos ⟨h2.1, h2.2.1, by omega, by rw [List.length_cons]; omega⟩]
      · rw [if_neg h2, if_neg]
        rintro ⟨h3, h4, h5, h6⟩
        rw [List.length_cons] at h6
        have : i0 ≠ i := fun h => h1 ⟨h3, h, h4⟩
        exact h2 ⟨h3, h4, by omega, by omega⟩

theorem count_residuals (hc : Counts step role i jac count) {p : Problem D α} (hi : i < (residualsOf p role).length)
    (jac' : Bool) (x : Fin n → α) (w : W) :
    count ((residualCalls p jac' x).foldl step w) = count w + if jac' = jac then 1 else 0 := by
  rw [residualCalls_eq, List.foldl_append, count_from hc, count_from hc]
  cases role with
  | cost =>
    have hi' : i < p.costs.length := hi
    rw [Nat.add_assoc]
    congr 1
    by_cases hj : jac' = jac
    · rw [if_pos ⟨rfl, hj, by omega, by omega⟩, if_neg (by rintro ⟨h, -⟩; cases h), if_pos hj]
    · rw [if_neg (fun h => hj h.2.1), if_neg (fun h => hj h.2.1), if_neg hj]
  | equality =>
    have hi' : i < p.eqs.length := hi
    rw [Nat.add_assoc]
    congr 1
    by_cases hj : jac' = jac
    · rw [if_neg (by rintro ⟨h, -⟩; cases h), if_pos ⟨rfl, hj, by omega, by omega⟩, if_pos hj]
    · rw [if_neg (fun h => hj h.2.1), if_neg (fun h => hj h.2.1), if_neg hj]

theorem count_trials (hc : Counts step role i jac count) {env : Env n D α}
    (hi : i < (residualsOf env.p role).length) (x : Fin n → α) (dx : Fin D → α) :
    ∀ (l : List (LineSearchStep α)) (w : W),
      count ((l.flatMap fun st => trialCalls env x dx st.alpha).foldl step w) =
        count w + if jac = false then l.length else 0 := by
  intro l
  induction l with
  | nil => intro w; simp
  | cons a l ih =>
    intro w
    rw [List.flatMap_cons, List.foldl_append, ih, trialCalls, List.foldl_append, count_residuals hc hi]
    have h0 : count ((if env.retraction.isSome then [UserCall.retraction x dx a.alpha] else []).foldl step w) =
        count w := by
      split_ifs
      · exact hc.no _ _ (fun h => h)
      · rfl
    rw [h0, List.length_cons]
    cases jac
    · simp
      omega
    · simp

theorem count_iterations (hc : Counts step role i jac count) {env : Env n D α}
    (hi : i < (residualsOf env.p role).length) :
    ∀ (l : List (NLSIteration α)) (X : Nat → Fin n → α) (DX : Nat → Fin D → α) (w : W),
      count ((l.mapIdx fun k it => iterationCalls env (X k) (DX k) it).flatten.foldl step w) =
        count w + if jac = true then l.length else (l.map fun it => it.lineSearchSteps.length).sum := by
  intro l
  induction l with
  | nil => intro X DX w; simp
  | cons it l ih =>
    intro X DX w
    rw [List.mapIdx_cons, List.flatten_cons, List.foldl_append, ih (fun k => X (k + 1)) (fun k => DX (k + 1)),
      iterationCalls, List.foldl_append, List.foldl_append]
    have h0 : ∀ w, count ((if env.callback.isSome then [UserCall.callback it] else []).foldl step w) = count w := by
      intro w
      split_ifs
      · exact hc.no _ _ (fun h => h)
      · rfl
    rw [h0, count_trials hc hi, count_residuals hc hi, List.length_cons, List.map_cons, List.sum_cons]
    cases jac <;> simp <;> omega

end Counting

/-- **C86** (how often). In a solve that returns, every residual is evaluated with its Jacobian exactly once per logged
iteration, plus once if the subproblem was found indefinite, and without it exactly once per logged line-search step. -/
theorem C86_counts {env : Env n D α} {prm : NLSParams α} {x0 : Fin n → α} {o o' : env.Obj} {out : NLSOutputs α}
    {infos : List (NLSIteration α)} {W : Type} {u : World W n D α} {step : W → UserCall n D α → W}
    {seen : W → List (NLSIteration α)} (hA : AnswersLike env u step seen) {w w' : W} (hw : seen w = [])
    (h : solveW u env prm x0 o w = (w', .ok (o', out, infos)))
    (role : Role) (i : Nat) (hi : i < (residualsOf env.p role).length) (jac : Bool) (count : W → Nat)
    (hc : Counts step role i jac count) :
    count w' = count w +
      if jac then out.iterations.length + (if out.termination = .qpIndefinite then 1 else 0)
      else (out.iterations.map fun it => it.lineSearchSteps.length).sum := by
  obtain ⟨made, h1, h2, -⟩ := C86_calls env prm x0 o
  rw [h1 W u step seen hA w hw] at h
  obtain ⟨hw', hs⟩ := Prod.mk.inj h
  obtain ⟨ob, -, hm⟩ := h2 _ _ _ hs
  rw [← hw', hm, List.foldl_append]
  have h3 := count_iterations hc hi out.iterations (fun k => (ob k).vars) (fun k => (ob (k + 1)).dx) w
  by_cases c2 : out.termination = .qpIndefinite
  · rw [if_pos c2, if_pos c2, count_residuals hc hi, h3]
    cases jac
    · rfl
    · exact Nat.add_assoc _ _ _
  · rw [if_neg c2, if_neg c2, List.foldl_nil, h3]
    cases jac <;> rfl

/-- **C86** (at most). The evaluations without Jacobian are at most `max_line_search_iterations + 1` per iteration. -/
theorem C86_budget {env : Env n D α} {prm : NLSParams α} {x0 : Fin n → α} {o o' : env.Obj} {out : NLSOutputs α}
    {infos : List (NLSIteration α)} {W : Type} {u : World W n D α} {step : W → UserCall n D α → W}
    {seen : W → List (NLSIteration α)} (hA : AnswersLike env u step seen) {w w' : W} (hw : seen w = [])
    (h : solveW u env prm x0 o w = (w', .ok (o', out, infos)))
    (role : Role) (i : Nat) (hi : i < (residualsOf env.p role).length) (jac : Bool) (count : W → Nat)
    (hc : Counts step role i jac count) :
    (count w' : Int) ≤ count w + prm.maxIterations * (if jac then 1 else prm.maxLineSearchIterations + 1) := by
  have hcount := C86_counts hA hw h role i hi jac count hc
  obtain ⟨made, h1, -, -⟩ := C86_calls env prm x0 o
  rw [h1 W u step seen hA w hw] at h
  obtain ⟨-, hs⟩ := Prod.mk.inj h
  obtain ⟨S, T, P, v⟩ := solve_view hs
  have hle := v.le
  have hls := v.prmOk.maxLineSearchIterations
  cases jac with
  | true =>
    rw [if_pos rfl] at hcount
    rw [if_pos rfl]
    rcases v.stop with ⟨h2, -⟩ | ⟨h2, -⟩ | ⟨h2, h3, -⟩
    · rw [if_neg (by rw [h2]; exact fun h => by cases h)] at hcount; omega
    · rw [if_neg h2] at hcount; omega
    · rw [if_pos h2] at hcount; omega
  | false =>
    have hsum : ∀ l : List (NLSIteration α),
        (∀ it ∈ l, (it.lineSearchSteps.length : Int) ≤ prm.maxLineSearchIterations + 1) →
        (((l.map fun it => it.lineSearchSteps.length).sum : Nat) : Int) ≤
          l.length * (prm.maxLineSearchIterations + 1) := by
      intro l
      induction l with
      | nil => intro _; simp
      | cons a l ih =>
        intro hl
        have h1 := hl a (List.mem_cons_self ..)
        have h2 := ih fun it hit => hl it (List.mem_cons_of_mem _ hit)
        rw [List.map_cons, List.sum_cons, List.length_cons]
        rw [Nat.cast_add, Nat.cast_add, Int.add_mul, Nat.cast_one, Int.one_mul]
        omega
    have h2 := hsum out.iterations fun it hit => (C40_alphas_any env prm x0 o o' out infos hs it hit).2.1
    have h3 : (out.iterations.length : Int) * (prm.maxLineSearchIterations + 1) ≤
        prm.maxIterations * (prm.maxLineSearchIterations + 1) := Int.mul_le_mul_of_nonneg_right hle (by omega)
    simp only [Bool.false_eq_true, if_false] at hcount ⊢
    omega

/-! ## User code that keeps a record -/

/-- User code that gives the answers of `env` and writes down every call. -/
def recording (env : Env n D α) : World (List (UserCall n D α)) n D α where
  value w role i r q := (w ++ [.residual role i false (List.ofFn q)], if r.throws q then none else some (r.value q))
  valueJ w role i r q :=
    (w ++ [.residual role i true (List.ofFn q)], if r.throwsJ q then none else some (r.valueJ q, r.jac q))
  retraction w x dx a :=
    (w ++ [.retraction x dx a], if env.retractionThrows x dx a then none else env.retraction.map fun R => R x dx a)
  callback w info := (w ++ [.callback info],
    if env.callbackThrows (w.filterMap callbackOf ++ [info]) then none
    else env.callback.map fun cb => cb (w.filterMap callbackOf ++ [info]))

omit [Scalar α] in
theorem recording_answers (env : Env n D α) :
    AnswersLike env (recording env) (fun w c => w ++ [c]) (fun w => w.filterMap callbackOf) where
  value _ _ _ _ _ _ := rfl
  valueJ _ _ _ _ _ _ := rfl
  retraction R hR w x dx a := by simp only [recording, hR, Option.map_some]
  callback cb hcb w info := by simp only [recording, hcb, Option.map_some]
  seenResidual w role i j q := by simp [callbackOf]
  seenRetraction w x dx a := by simp [callbackOf]
  seenCallback w info := by simp [callbackOf]

omit [Scalar α] in
theorem foldl_record (l w : List (UserCall n D α)) : l.foldl (fun w c => w ++ [c]) w = w ++ l := by
  induction l generalizing w with
  | nil => simp
  | cons c l ih => rw [List.foldl_cons, ih]; simp

/-- **C86** (the record). With user code that writes down its calls, starting from an empty record, the record at the end
is the list of calls of `C86_calls`. -/
theorem C86_record (env : Env n D α) (prm : NLSParams α) (x0 : Fin n → α) (o o' : env.Obj) (out : NLSOutputs α)
    (infos : List (NLSIteration α)) (h : solve env prm x0 o = .ok (o', out, infos)) :
    ∃ ob : Nat → env.Obj, (∀ k, k ≤ out.iterations.length → After env prm x0 o k (ob k)) ∧
      solveW (recording env) env prm x0 o [] =
        ((out.iterations.mapIdx fun k it => iterationCalls env (ob k).vars (ob (k + 1)).dx it).flatten ++
          (if out.termination = .qpIndefinite then residualCalls env.p true o'.vars else []), .ok (o', out, infos)) := by
  obtain ⟨made, h1, h2, -⟩ := C86_calls env prm x0 o
  obtain ⟨ob, hob, hm⟩ := h2 _ _ _ h
  refine ⟨ob, hob, ?_⟩
  rw [h1 _ _ _ _ (recording_answers env) [] rfl, foldl_record, List.nil_append, hm, h]

/-! ## Examples -/

section Examples

open MiniOpt.DemoNLS

/-- What a call is, for printing. -/
def shown : UserCall 1 1 Rt → String × List ℚ
  | .residual _ _ true q => ("with Jacobian", q.map (·.v))
  | .residual _ _ false q => ("without", q.map (·.v))
  | .retraction x dx a => ("retraction", [(x 0).v, (dx 0).v, a.v])
  | .callback it => ("callback", [it.iteration])

/-- `x - 3` from 5 with a Jacobian of the wrong sign and a callback that stops after two iterations: an evaluation with
Jacobian, trial steps and a callback, twice. -/
example : ((solveW (recording (env1 wrongSign (some fun l => l.length < 2))) (env1 wrongSign (some fun l => l.length < 2))
      { prm 10 with maxLineSearchIterations := 1 } (fun _ => ⟨5⟩) (obj1 wrongSign (some fun l => l.length < 2)) []).1.map shown)
    = [("with Jacobian", [5]), ("without", [7]), ("without", [27 / 5]), ("callback", [0]),
       ("with Jacobian", [5]), ("without", [705 / 101]), ("without", [340 / 63]), ("callback", [1])] := by
  decide +kernel

/-- The same with a callback that throws in its first call: nothing is called after it. -/
example : (solveW (recording { env1 wrongSign (some fun _ => true) with callbackThrows := fun _ => true })
      { env1 wrongSign (some fun _ => true) with callbackThrows := fun _ => true }
      { prm 10 with maxLineSearchIterations := 1 } (fun _ => ⟨5⟩) (obj1 wrongSign (some fun _ => true)) []).1.map shown
    = [("with Jacobian", [5]), ("without", [7]), ("without", [27 / 5]), ("callback", [0])] := by
  decide +kernel

/-- A counter for a residual among the user code that writes down its calls. -/
example : Counts (n := 1) (D := 1) (α := Rt) (fun w c => w ++ [c]) .cost 0 false
    (fun w => (w.filter fun c => match c with
      | .residual .cost 0 false _ => true
      | _ => false).length) where
  yes w c h := by
    cases c with
    | residual role i j q => obtain ⟨rfl, rfl, rfl⟩ := h; simp
    | _ => cases h
  no w c h := by
    rw [List.filter_append, List.length_append]
    cases c with
    | residual role i j q =>
      rw [List.filter_cons]
      split
      · rename_i heq
        cases heq
        exact absurd ⟨rfl, rfl, rfl⟩ h
      · rfl
    | _ => rfl

end Examples

end MiniOpt.Props
