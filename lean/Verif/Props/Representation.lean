import Verif.Spec.RepresentationSpec
import Verif.Props.Exceptions

/-! Normalising the variables in the retraction does not change a solve (C134, any arithmetic). -/

set_option autoImplicit false

namespace MiniOpt.Props

open MiniOpt MiniOpt.Spec MiniOpt.NLS

variable {α : Type} [Scalar α] {n D : Nat}

theorem gather_params (r : Residual α) (x : Fin n → α) :
    r.gather x = match Residual.checkGather n (List.ofFn r.index) with
      | .error e => .error e
      | .ok _ => if ∀ l, 0 ≤ r.index l ∧ r.index l < (n : Int) then .ok (params r x) else .error (.ub "input[i] out of range") := by
  unfold Residual.gather
  cases Residual.checkGather n (List.ofFn r.index) with
  | error e => rfl
  | ok u =>
    dsimp only
    by_cases h : ∀ l, 0 ≤ r.index l ∧ r.index l < (n : Int)
    · rw [dif_pos h, if_pos h]
      congr 1
      funext l
      unfold params
      rw [dif_pos (h l)]
    · rw [dif_neg h, if_neg h]

theorem told_errorVector {r : Residual α} {x y : Fin n → α} (h : NotToldApart r x y) (rows : Nat) :
    r.errorVector x rows = r.errorVector y rows := by
  unfold Residual.errorVector
  rw [gather_params, gather_params]
  cases Residual.checkGather n (List.ofFn r.index) with
  | error e => rfl
  | ok u =>
    by_cases hi : ∀ l, 0 ≤ r.index l ∧ r.index l < (n : Int)
    · simp only [if_pos hi, h.value, h.throws]
    · simp only [if_neg hi]

theorem told_updateHessian {r : Residual α} {x y : Fin n → α} (h : NotToldApart r x y) (H : Fin D → Fin D → α) (b : Fin D → α) :
    r.updateHessian x H b = r.updateHessian y H b := by
  unfold Residual.updateHessian
  rw [gather_params, gather_params]
  cases Residual.checkGather n (List.ofFn r.index) with
  | error e => rfl
  | ok u =>
    by_cases hi : ∀ l, 0 ≤ r.index l ∧ r.index l < (n : Int)
    · simp only [if_pos hi, h.valueJ, h.jac, h.throwsJ]
    · simp only [if_neg hi]

theorem told_updateJacobian {r : Residual α} {x y : Fin n → α} (h : NotToldApart r x y) (rows brows : Nat)
    (A : Fin r.dim → Fin D → α) (b : Fin r.dim → α) :
    r.updateJacobian x rows brows A b = r.updateJacobian y rows brows A b := by
  unfold Residual.updateJacobian
  rw [gather_params, gather_params]
  cases Residual.checkGather n (List.ofFn r.index) with
  | error e => rfl
  | ok u =>
    by_cases hi : ∀ l, 0 ≤ r.index l ∧ r.index l < (n : Int)
    · simp only [if_pos hi, h.valueJ, h.jac, h.throwsJ]
    · simp only [if_neg hi]

theorem told_linCosts {x y : Fin n → α} : ∀ (l : List (Residual α)) (_ : ∀ r ∈ l, NotToldApart r x y)
    (G : Fin D → Fin D → α) (c : Fin D → α) (f : α), linCosts x l G c f = linCosts y l G c f := by
  intro l
  induction l with
  | nil => intros; rfl
  | cons r rs ih =>
    intro h G c f
    unfold linCosts
    rw [told_updateHessian (h r (by simp))]
    cases r.updateHessian y G c with
    | error e => rfl
    | ok q => exact ih (fun r hr => h r (by simp [hr])) _ _ _

theorem told_linEqs {K : Nat} {x y : Fin n → α} : ∀ (l : List (Residual α)) (_ : ∀ r ∈ l, NotToldApart r x y) (row : Nat)
    (A : Fin K → Fin D → α) (b : Fin K → α) (f : α), linEqs x l row A b f = linEqs y l row A b f := by
  intro l
  induction l with
  | nil => intros; rfl
  | cons r rs ih =>
    intro h row A b f
    unfold linEqs
    by_cases hd : row + r.dim ≤ K
    · rw [dif_pos hd, dif_pos hd, told_updateJacobian (h r (by simp))]
      cases r.updateJacobian y r.dim r.dim (getRows A row hd) (getRows b row hd) with
      | error e => rfl
      | ok q => exact ih (fun r hr => h r (by simp [hr])) _ _ _ _
    · rw [dif_neg hd, dif_neg hd]

theorem told_shiftAt {x y : Fin n → α} {c : Ineq α} (h : ∀ j : Fin n, c.var = (j.val : Int) → x j = y j) :
    shiftAt x c = shiftAt y c := by
  unfold shiftAt
  by_cases hv : c.var < (n : Int)
  · rw [if_neg (not_not.mpr hv), if_neg (not_not.mpr hv)]
    cases ht : toFin n c.var with
    | none => rfl
    | some j =>
      dsimp only
      have : c.var = (j.val : Int) := by
        unfold toFin at ht
        split_ifs at ht with hh
        cases ht
        simp only
        omega
      rw [h j this]
  · rw [if_pos hv, if_pos hv]

theorem told_shiftLoop {x y : Fin n → α} : ∀ (l : List (Ineq α))
    (_ : ∀ c ∈ l, ∀ j : Fin n, c.var = (j.val : Int) → x j = y j), shiftLoop x l = shiftLoop y l := by
  intro l
  induction l with
  | nil => intros; rfl
  | cons c cs ih =>
    intro h
    unfold shiftLoop
    rw [told_shiftAt (h c (by simp)), ih fun c hc => h c (by simp [hc])]

theorem told_linearize {p : Problem D α} {T : (Fin n → α) → Fin n → α} (hu : Unnoticed p T) (y : Fin n → α) (lambda : α)
    (qp : QPData D p.M p.K α) : linearize p (T y) lambda qp = linearize p y lambda qp := by
  unfold linearize
  rw [told_linCosts p.costs fun r hr => hu.residuals r (.inl hr) y, told_shiftLoop p.ineq fun c hc => hu.bounds c hc y]
  simp only [told_linEqs p.eqs fun r hr => hu.residuals r (.inr hr) y]

theorem told_evalErrors {p : Problem D α} {T : (Fin n → α) → Fin n → α} (hu : Unnoticed p T) (y : Fin n → α) :
    evalErrors p (T y) = evalErrors p y := by
  have h1 : ∀ (l : List (Residual α)) (_ : ∀ r ∈ l, NotToldApart r (T y) y) (f : α), evalCosts (T y) l f = evalCosts y l f := by
    intro l
    induction l with
    | nil => intros; rfl
    | cons r rs ih =>
      intro h f
      unfold evalCosts
      rw [told_errorVector (h r (by simp))]
      cases r.errorVector y r.dim with
      | error e => rfl
      | ok q => exact ih (fun r hr => h r (by simp [hr])) _
  have h2 : ∀ (l : List (Residual α)) (_ : ∀ r ∈ l, NotToldApart r (T y) y) (f : α), evalEqs (T y) l f = evalEqs y l f := by
    intro l
    induction l with
    | nil => intros; rfl
    | cons r rs ih =>
      intro h f
      unfold evalEqs
      rw [told_errorVector (h r (by simp))]
      cases r.errorVector y r.dim with
      | error e => rfl
      | ok q => exact ih (fun r hr => h r (by simp [hr])) _
  unfold evalErrors
  simp only [h1 p.costs fun r hr => hu.residuals r (.inl hr) y, h2 p.eqs fun r hr => hu.residuals r (.inr hr) y]

/-- The outcome of a step of the solver, with the variables in the other form. -/
def mapOut {M K : Nat} {β : Type} (T : (Fin n → α) → Fin n → α) :
    Except (Fault × Obj n D M K α) (Obj n D M K α × β) → Except (Fault × Obj n D M K α) (Obj n D M K α × β)
  | .error (e, o) => .error (e, mapObj T o)
  | .ok (o, b) => .ok (mapObj T o, b)

theorem told_lsLoop (env : Env n D α) (R : Option ((Fin n → α) → (Fin D → α) → α → Fin n → α))
    (thr : (Fin n → α) → (Fin D → α) → α → Bool) (T : (Fin n → α) → Fin n → α) (hu : Unnoticed env.p T)
    (hm : ∀ y e a, retract env (T y) e a = (retract (withRetraction env R thr) y e a).map T) (prm : NLSParams α)
    (x : Fin n → α) (dx : Fin D → α) (pre : Errors α) (d : DirectionalDerivatives α) (pen : α) :
    ∀ (fuel iter : Nat) (a : α) (steps : List (LineSearchStep α)) (cand : Fin n → α),
    lsLoop env prm (T x) dx pre d pen fuel iter a steps (T cand)
      = match lsLoop (withRetraction env R thr) prm x dx pre d pen fuel iter a steps cand with
        | .error (e, st, c) => .error (e, st, T c)
        | .ok (r, st, c) => .ok (r, st, T c) := by
  intro fuel
  induction fuel with
  | zero => intros; rfl
  | succ fuel ih =>
    intro iter a steps cand
    simp only [lsLoop]
    cases nextAlpha prm.lineSearchStrategy prm.armijoSearchTau iter pre d pen a steps with
    | error e => rfl
    | ok q =>
      cases q with
      | none => rfl
      | some a' =>
        dsimp only
        rw [hm]
        cases retract (withRetraction env R thr) x dx a' with
        | error e => rfl
        | ok c =>
          have he : evalErrors env.p (T c) = evalErrors (withRetraction env R thr).p c := told_evalErrors hu c
          dsimp only [Except.map]
          rw [he]
          cases evalErrors (withRetraction env R thr).p c with
          | error e => rfl
          | ok es =>
            dsimp only
            rw [ih]
            split_ifs <;> rfl

theorem told_selectStepSize (env : Env n D α) (R : Option ((Fin n → α) → (Fin D → α) → α → Fin n → α))
    (thr : (Fin n → α) → (Fin D → α) → α → Bool) (T : (Fin n → α) → Fin n → α) (hu : Unnoticed env.p T)
    (hm : ∀ y e a, retract env (T y) e a = (retract (withRetraction env R thr) y e a).map T) (prm : NLSParams α)
    (pre : Errors α) (d : DirectionalDerivatives α) (pen : α) (o : env.Obj) :
    selectStepSize env prm pre d pen (mapObj T o)
      = mapOut T (selectStepSize (withRetraction env R thr) prm pre d pen o) := by
  unfold selectStepSize
  by_cases hp : 0 < pen
  · rw [if_neg (not_not.mpr hp), if_neg (not_not.mpr hp)]
    by_cases hc : pre.containsInvalid
    · rw [if_pos hc, if_pos hc]; rfl
    · rw [if_neg hc, if_neg hc]
      have h : lsLoop env prm (mapObj T o).vars (mapObj T o).dx pre d pen (prm.maxLineSearchIterations + 1).toNat 0 1 []
          (mapObj T o).cand = _ :=
        told_lsLoop env R thr T hu hm prm o.vars o.dx pre d pen (prm.maxLineSearchIterations + 1).toNat 0 1 [] o.cand
      rw [h]
      cases lsLoop (withRetraction env R thr) prm o.vars o.dx pre d pen (prm.maxLineSearchIterations + 1).toNat 0 1 [] o.cand <;> rfl
  · rw [if_pos hp, if_pos hp]; rfl

theorem told_updateLambda (env : Env n D α) (R : Option ((Fin n → α) → (Fin D → α) → α → Fin n → α))
    (thr : (Fin n → α) → (Fin D → α) → α → Bool) (T : (Fin n → α) → Fin n → α) (prm : NLSParams α) (res : StepResult)
    (pre : Errors α) (pen lambda : α) (o : env.Obj) :
    updateLambda env prm res pre pen lambda (mapObj T o)
      = mapOut T (updateLambda (withRetraction env R thr) prm res pre pen lambda o) := by
  obtain ⟨qp, sol, c, d, e, f, g⟩ := o
  cases res <;> try rfl
  unfold updateLambda mapObj
  dsimp only
  cases f.getLast? <;> rfl

theorem told_stepDirection (env : Env n D α) (R : Option ((Fin n → α) → (Fin D → α) → α → Fin n → α))
    (thr : (Fin n → α) → (Fin D → α) → α → Bool) (T : (Fin n → α) → Fin n → α) (prm : NLSParams α) (o : env.Obj) :
    stepDirection env prm (mapObj T o) = mapOut T (stepDirection (withRetraction env R thr) prm o) := by
  obtain ⟨p, R0, cb, E, NE, ev, fi, fn, rt, ct⟩ := env
  obtain ⟨qp, sol, c, d, e, f, g⟩ := o
  unfold stepDirection withRetraction mapObj
  dsimp only at *
  cases sol with
  | ip st =>
    dsimp only
    cases checkIndices D (List.ofFn qp.con) with
    | error e => rfl
    | ok u =>
      dsimp only
      by_cases h : ∀ i, 0 ≤ (qp.con i).var ∧ (qp.con i).var < (D : Int)
      · rw [dif_pos h, dif_pos h]
        cases IP.solve E (qp.typed h) (qpParams p prm) (IP.setupState st) <;> rfl
      · rw [dif_neg h, dif_neg h]; rfl
  | ns st =>
    dsimp only
    cases hs : NS.solve NE (⟨qp.G, qp.c, qp.A, qp.b, Fin.elim0⟩ : QP D 0 p.K α) st with
    | error e => rfl
    | ok q => obtain ⟨st', t⟩ := q; cases t <;> rfl

/-- A loop state, with the variables in the other form. -/
def mapLoop {env : Env n D α} {R : Option ((Fin n → α) → (Fin D → α) → α → Fin n → α)}
    {thr : (Fin n → α) → (Fin D → α) → α → Bool} (T : (Fin n → α) → Fin n → α) (s : Loop (withRetraction env R thr)) : Loop env :=
  ⟨mapObj T s.obj, s.lambda, s.penalty, s.log, s.calls⟩

theorem told_body (env : Env n D α) (R : Option ((Fin n → α) → (Fin D → α) → α → Fin n → α))
    (thr : (Fin n → α) → (Fin D → α) → α → Bool) (T : (Fin n → α) → Fin n → α) (hu : Unnoticed env.p T)
    (hm : ∀ y e a, retract env (T y) e a = (retract (withRetraction env R thr) y e a).map T) (prm : NLSParams α) (iter : Nat)
    (s : Loop (withRetraction env R thr)) :
    body env prm iter (mapLoop T s) = match body (withRetraction env R thr) prm iter s with
      | .error (e, o) => .error (e, mapObj T o)
      | .ok (s1, t) => .ok (mapLoop T s1, t) := by
  have e1 : linearize env.p (mapLoop T s).obj.vars (mapLoop T s).lambda (mapLoop T s).obj.qp
      = linearize (withRetraction env R thr).p s.obj.vars s.lambda s.obj.qp := told_linearize hu s.obj.vars s.lambda s.obj.qp
  cases h1 : linearize (withRetraction env R thr).p s.obj.vars s.lambda s.obj.qp with
  | error e =>
    rw [h1] at e1
    have a : body env prm iter (mapLoop T s) = .error (e.1, { (mapLoop T s).obj with qp := e.2 }) := by unfold body; rw [e1]
    have b : body (withRetraction env R thr) prm iter s = .error (e.1, { s.obj with qp := e.2 }) := by unfold body; rw [h1]
    rw [a, b]; rfl
  | ok q =>
  obtain ⟨qp, pre⟩ := q
  rw [h1] at e1
  have e2 : stepDirection env prm ({ (mapLoop T s).obj with qp := qp } : env.Obj)
      = mapOut T (stepDirection (withRetraction env R thr) prm ({ s.obj with qp := qp } : env.Obj)) :=
    told_stepDirection env R thr T prm ({ s.obj with qp := qp } : env.Obj)
  cases h2 : stepDirection (withRetraction env R thr) prm ({ s.obj with qp := qp } : env.Obj) with
  | error e =>
    replace e2 : stepDirection env prm ({ (mapLoop T s).obj with qp := qp } : env.Obj) = .error (e.1, mapObj T e.2) := by
      rw [e2]; erw [h2]; rfl
    have a : body env prm iter (mapLoop T s) = .error (e.1, mapObj T e.2) := by unfold body; rw [e1]; simp only; rw [e2]
    have b : body (withRetraction env R thr) prm iter s = .error e := by unfold body; rw [h1]; simp only; erw [h2]
    rw [a, b]
  | ok q =>
  obtain ⟨o1, out⟩ := q
  replace e2 : stepDirection env prm ({ (mapLoop T s).obj with qp := qp } : env.Obj) = .ok (mapObj T o1, out) := by
    rw [e2]; erw [h2]; rfl
  by_cases hind : wasIndefinite out = true
  · have a : body env prm iter (mapLoop T s) = .ok ({ mapLoop T s with obj := mapObj T o1 }, some .qpIndefinite) := by
      unfold body; rw [e1]; simp only; rw [e2]; simp only; rw [if_pos hind]
    have b : body (withRetraction env R thr) prm iter s = .ok ({ s with obj := o1 }, some .qpIndefinite) := by
      unfold body; rw [h1]; simp only; erw [h2]; simp only; rw [if_pos hind]
    rw [a, b]; rfl
  have e3 : selectStepSize env prm pre (costDerivative (mapObj (K := env.p.K) T o1).qp (mapObj (K := env.p.K) T o1).dx)
      (raisePenalty env.p prm (mapObj (M := env.p.M) (K := env.p.K) T o1).qp (mapObj (M := env.p.M) (K := env.p.K) T o1).dx out (mapLoop T s).penalty)
      (mapObj (M := env.p.M) (K := env.p.K) T o1) = _ :=
    told_selectStepSize env R thr T hu hm prm pre (costDerivative o1.qp o1.dx)
      (raisePenalty (withRetraction env R thr).p prm o1.qp o1.dx out s.penalty) o1
  cases h3 : selectStepSize (withRetraction env R thr) prm pre (costDerivative o1.qp o1.dx)
      (raisePenalty (withRetraction env R thr).p prm o1.qp o1.dx out s.penalty) o1 with
  | error e =>
    rw [h3] at e3
    have a : body env prm iter (mapLoop T s) = .error (e.1, mapObj T e.2) := by
      unfold body; rw [e1]; simp only; rw [e2]; simp only; rw [if_neg hind]; erw [e3]; rfl
    have b : body (withRetraction env R thr) prm iter s = .error e := by
      unfold body; rw [h1]; simp only; erw [h2]; simp only; rw [if_neg hind, h3]
    rw [a, b]
  | ok q =>
  obtain ⟨o2, res⟩ := q
  rw [h3] at e3
  have e4 : updateLambda env prm res pre
      (raisePenalty env.p prm (mapObj (M := env.p.M) (K := env.p.K) T o1).qp (mapObj (M := env.p.M) (K := env.p.K) T o1).dx out (mapLoop T s).penalty)
      (mapLoop T s).lambda (mapObj (M := env.p.M) (K := env.p.K) T o2) = _ :=
    told_updateLambda env R thr T prm res pre (raisePenalty (withRetraction env R thr).p prm o1.qp o1.dx out s.penalty) s.lambda o2
  cases h4 : updateLambda (withRetraction env R thr) prm res pre
      (raisePenalty (withRetraction env R thr).p prm o1.qp o1.dx out s.penalty) s.lambda o2 with
  | error e =>
    rw [h4] at e4
    have a : body env prm iter (mapLoop T s) = .error (e.1, mapObj T e.2) := by
      unfold body; rw [e1]; simp only; rw [e2]; simp only; rw [if_neg hind]; erw [e3]; simp only [mapOut]; erw [e4]; rfl
    have b : body (withRetraction env R thr) prm iter s = .error e := by
      unfold body; rw [h1]; simp only; erw [h2]; simp only; rw [if_neg hind, h3]; simp only; rw [h4]
    rw [a, b]
  | ok q =>
  obtain ⟨o3, lam, ex⟩ := q
  rw [h4] at e4
  have a := body_eq (env := env) (s := mapLoop T s) (iter := iter) e1 e2 hind e3 e4
  have b := body_eq (env := withRetraction env R thr) (s := s) (iter := iter) h1 h2 hind h3 h4
  rw [a, b]
  have e5 : ∀ info calls, callbackFails env info calls = callbackFails (withRetraction env R thr) info calls := fun _ _ => rfl
  cases hcf : callbackFails (withRetraction env R thr)
    (entry (withRetraction env R thr) prm iter s.lambda s.penalty pre out o1 o3 res) s.calls with
  | true =>
    rw [if_pos rfl, if_pos (by rw [e5]; exact hcf)]; rfl
  | false =>
    exact (if_neg fun hh => by cases hcf.symm.trans hh).trans rfl

theorem told_loop (env : Env n D α) (R : Option ((Fin n → α) → (Fin D → α) → α → Fin n → α))
    (thr : (Fin n → α) → (Fin D → α) → α → Bool) (T : (Fin n → α) → Fin n → α) (hu : Unnoticed env.p T)
    (hm : ∀ y e a, retract env (T y) e a = (retract (withRetraction env R thr) y e a).map T) (prm : NLSParams α) :
    ∀ (fuel iter : Nat) (s : Loop (withRetraction env R thr)),
    loop env prm fuel iter (mapLoop T s) = match loop (withRetraction env R thr) prm fuel iter s with
      | .error (e, o) => .error (e, mapObj T o)
      | .ok (s1, t) => .ok (mapLoop T s1, t) := by
  intro fuel
  induction fuel with
  | zero => intros; rfl
  | succ fuel ih =>
    intro iter s
    simp only [loop]
    rw [told_body env R thr T hu hm]
    cases body (withRetraction env R thr) prm iter s with
    | error e => rfl
    | ok q =>
      obtain ⟨s1, t⟩ := q
      cases t with
      | some t => rfl
      | none => exact ih _ _

/-- **C134** (normalising in the retraction, any arithmetic). If the problem's functions do not tell `T y` from `y` and moving from
`T y` gives `T` of what the other retraction gives from `y`, then the solve from `T x0` is the solve with the other retraction from
`x0`: same exception or same outputs and same calls of the callback, the variables being `T` of the other's. -/
theorem C134_normalised (env : Env n D α) (R : Option ((Fin n → α) → (Fin D → α) → α → Fin n → α))
    (thr : (Fin n → α) → (Fin D → α) → α → Bool) (T : (Fin n → α) → Fin n → α) (hu : Unnoticed env.p T)
    (hm : ∀ y e a, retract env (T y) e a = (retract (withRetraction env R thr) y e a).map T)
    (prm : NLSParams α) (x0 : Fin n → α) (o : env.Obj) :
    solve env prm (T x0) (mapObj T o) = match solve (withRetraction env R thr) prm x0 o with
      | .error (e, o1) => .error (e, mapObj T o1)
      | .ok (o1, out, calls) => .ok (mapObj T o1, out, calls) := by
  unfold solve
  cases NLS.checkParams prm with
  | error e => rfl
  | ok u =>
    dsimp only
    have h0 : start env prm (T x0) (mapObj T o) = mapLoop T (start (withRetraction env R thr) prm x0 o) := by
      obtain ⟨qp, sol, c, d, e, f, g⟩ := o
      cases sol <;> rfl
    rw [h0, told_loop env R thr T hu hm]
    cases loop (withRetraction env R thr) prm prm.maxIterations.toNat 0 (start (withRetraction env R thr) prm x0 o) with
    | error e => rfl
    | ok q => rfl

end MiniOpt.Props
