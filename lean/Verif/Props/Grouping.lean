import Verif.Spec.GroupingSpec
import Verif.Props.Linearize
import Verif.Props.Exceptions
import Verif.Lemmas.Derivative

/-! Only the sum of squares matters, not the residuals it is written with (C135, exact arithmetic). -/

set_option autoImplicit false

namespace MiniOpt.Props

open MiniOpt MiniOpt.Spec MiniOpt.NLS

variable {n D : Nat}

/-- The costs never throw. -/
def QuietCosts (l : List (Residual ℝ)) : Prop := ∀ r ∈ l, NeverThrows r

theorem slope_add (r : Residual ℝ) (x : Fin n → ℝ) (d e : Fin D → ℝ) (k : Fin r.dim) :
    slopeAt r x (fun i => d i + e i) k = slopeAt r x d k + slopeAt r x e k := by
  unfold slopeAt
  rw [← Finset.sum_add_distrib]
  exact Finset.sum_congr rfl fun j _ => by ring

theorem slope_neg (r : Residual ℝ) (x : Fin n → ℝ) (d : Fin D → ℝ) (k : Fin r.dim) :
    slopeAt r x (fun i => - d i) k = - slopeAt r x d k := by
  unfold slopeAt
  rw [← Finset.sum_neg_distrib]
  exact Finset.sum_congr rfl fun j _ => by ring

theorem slope_single (r : Residual ℝ) (x : Fin n → ℝ) (i : Fin D) (k : Fin r.dim) :
    slopeAt r x (Pi.single i 1 : Fin D → ℝ) k = jacAt r x D k i := by
  unfold slopeAt
  rw [Finset.sum_eq_single i]
  · simp
  · intro j _ hj; simp [Pi.single_apply, hj]
  · intro h; exact absurd (Finset.mem_univ i) h

theorem squares_split (l : List (Residual ℝ)) (x : Fin n → ℝ) (d : Fin D → ℝ) :
    (l.map fun r => ∑ k, linAt r x d k ^ 2).sum = (l.map fun r => ∑ k, valueAt r x k ^ 2).sum
      + 2 * (l.map fun r => ∑ k, slopeAt r x d k * valueAt r x k).sum + (l.map fun r => ∑ k, slopeAt r x d k ^ 2).sum := by
  rw [← List.sum_map_mul_left, ← List.sum_map_add, ← List.sum_map_add]
  refine congrArg List.sum (List.map_congr_left fun r _ => ?_)
  rw [Finset.mul_sum, ← Finset.sum_add_distrib, ← Finset.sum_add_distrib]
  refine Finset.sum_congr rfl fun k _ => ?_
  change (valueAt r x k + slopeAt r x d k) ^ 2 = _
  ring

theorem squares_values {l l' : List (Residual ℝ)} (h : SameSquares n D l l') (x : Fin n → ℝ) :
    (l.map fun r => ∑ k, valueAt r x k ^ 2).sum = (l'.map fun r => ∑ k, valueAt r x k ^ 2).sum := by
  have := h x fun _ => 0
  have e : ∀ r : Residual ℝ, (fun k => linAt r x (fun _ : Fin D => (0 : ℝ)) k) = valueAt r x := by
    intro r; funext k; simp [linAt]
  have e' : ∀ (r : Residual ℝ) k, linAt r x (fun _ : Fin D => (0 : ℝ)) k = valueAt r x k := fun r k => congrFun (e r) k
  simpa only [e'] using this

theorem squares_gradient {l l' : List (Residual ℝ)} (h : SameSquares n D l l') (x : Fin n → ℝ) (d : Fin D → ℝ) :
    (l.map fun r => ∑ k, slopeAt r x d k * valueAt r x k).sum = (l'.map fun r => ∑ k, slopeAt r x d k * valueAt r x k).sum ∧
    (l.map fun r => ∑ k, slopeAt r x d k ^ 2).sum = (l'.map fun r => ∑ k, slopeAt r x d k ^ 2).sum := by
  have h0 := squares_values h x
  have h1 := h x d
  have h2 := h x fun i => - d i
  rw [squares_split, squares_split] at h1 h2
  simp only [slope_neg, neg_sq, neg_mul, Finset.sum_neg_distrib] at h2
  have e : ∀ l : List (Residual ℝ), (l.map fun r => -∑ k, slopeAt r x d k * valueAt r x k).sum
      = - (l.map fun r => ∑ k, slopeAt r x d k * valueAt r x k).sum := by
    intro l
    induction l with
    | nil => simp
    | cons r l ih => simp only [List.map_cons, List.sum_cons, ih]; ring
  rw [e, e] at h2
  constructor <;> linarith

theorem squares_gram {l l' : List (Residual ℝ)} (h : SameSquares n D l l') (x : Fin n → ℝ) (d e : Fin D → ℝ) :
    (l.map fun r => ∑ k, slopeAt r x d k * slopeAt r x e k).sum
      = (l'.map fun r => ∑ k, slopeAt r x d k * slopeAt r x e k).sum := by
  have key : ∀ l : List (Residual ℝ), (l.map fun r => ∑ k, slopeAt r x (fun i => d i + e i) k ^ 2).sum
      = (l.map fun r => ∑ k, slopeAt r x d k ^ 2).sum + 2 * (l.map fun r => ∑ k, slopeAt r x d k * slopeAt r x e k).sum
        + (l.map fun r => ∑ k, slopeAt r x e k ^ 2).sum := by
    intro l
    rw [← List.sum_map_mul_left, ← List.sum_map_add, ← List.sum_map_add]
    refine congrArg List.sum (List.map_congr_left fun r _ => ?_)
    rw [Finset.mul_sum, ← Finset.sum_add_distrib, ← Finset.sum_add_distrib]
    refine Finset.sum_congr rfl fun k _ => ?_
    rw [slope_add]
    ring
  have h1 := (squares_gradient h x fun i => d i + e i).2
  rw [key, key, (squares_gradient h x d).2, (squares_gradient h x e).2] at h1
  linarith

theorem costs_closed {p : Problem D ℝ} (hp : WellPosed p n) (hq : QuietCosts p.costs) (x : Fin n → ℝ) :
    linCosts x p.costs (fun _ _ => 0) (fun _ => 0) 0 = .ok
      (fun i j : Fin D => if j ≤ i then (p.costs.map fun r => ∑ k, slopeAt r x (Pi.single i 1 : Fin D → ℝ) k
          * slopeAt r x (Pi.single j 1 : Fin D → ℝ) k).sum else 0,
        fun i => (p.costs.map fun r => ∑ k, slopeAt r x (Pi.single i 1 : Fin D → ℝ) k * valueAt r x k).sum,
        1 / 2 * (p.costs.map fun r => ∑ k, valueAt r x k ^ 2).sum) := by
  have hcost : ∀ r ∈ p.costs, ∀ H b, r.updateHessian x H b = .ok
      (fun i j => H i j + if j ≤ i then ∑ k, jacAt r x D k i * jacAt r x D k j else 0,
        fun i => b i + ∑ k, jacAt r x D k i * valueAt r x k, (1 / 2) * ∑ k, valueAt r x k ^ 2) := by
    intro r hr H b
    exact updateHessian_distinct r x (hp.idx r (by simp [hr])) (hp.idxD r (by simp [hr])) (hp.distinct r (by simp [hr]))
      (hp.consistent r (by simp [hr])) (hq r hr _).2 H b
  rw [linCosts_sum x (fun r i j => if j ≤ i then ∑ k, jacAt r x D k i * jacAt r x D k j else 0)
    (fun r i => ∑ k, jacAt r x D k i * valueAt r x k) (fun r => (1 / 2) * ∑ k, valueAt r x k ^ 2) p.costs hcost]
  refine congrArg Except.ok (Prod.ext ?_ (Prod.ext ?_ ?_))
  · funext i j
    simp only [slope_single, zero_add]
    by_cases hij : j ≤ i
    · simp only [if_pos hij]
    · simp only [if_neg hij, List.map_const', List.sum_replicate, smul_zero]
  · funext i
    simp only [slope_single, zero_add]
  · simp only [zero_add, List.sum_map_mul_left]

theorem grouped_linearize {env : Env n D ℝ} {costs' : List (Residual ℝ)} (hp : WellPosed env.p n)
    (hp' : WellPosed (withCosts env costs').p n) (hq : QuietCosts env.p.costs) (hq' : QuietCosts costs')
    (h : SameSquares n D env.p.costs costs') (x : Fin n → ℝ) (lambda : ℝ) (qp : QPData D env.p.M env.p.K ℝ) :
    linearize (withCosts env costs').p x lambda qp = linearize env.p x lambda qp := by
  have e : linCosts x (withCosts env costs').p.costs (fun (_ _ : Fin D) => (0 : ℝ)) (fun _ => 0) 0
      = linCosts x env.p.costs (fun _ _ => 0) (fun _ => 0) 0 := by
    rw [costs_closed hp hq, costs_closed hp' hq']
    show Except.ok (_, _, 1 / 2 * (costs'.map fun r => ∑ k, valueAt r x k ^ 2).sum) = _
    refine congrArg Except.ok (Prod.ext ?_ (Prod.ext ?_ ?_))
    · funext i j
      simp only
      rw [squares_gram h x]
      rfl
    · funext i
      exact (squares_gradient h x _).1.symm
    · simp only
      rw [squares_values h x]
  clear hp hp' hq hq' h
  obtain ⟨⟨c0, i0, e0⟩, R, cb, E, NE, ev, fi, fn, rt, ct⟩ := env
  unfold linearize
  rw [e]
  dsimp only [withCosts]
  cases linCosts x c0 (fun (_ _ : Fin D) => (0 : ℝ)) (fun _ => 0) 0 with
  | error _ => rfl
  | ok q =>
    dsimp only
    cases hE : linEqs x e0 0 (fun (_ : Fin (Problem.K ⟨c0, i0, e0⟩)) (_ : Fin D) => (0 : ℝ)) (fun _ => 0) 0 with
    | error _ => rfl
    | ok q =>
      dsimp only
      cases shiftLoop x i0 <;> rfl

theorem grouped_evalErrors {env : Env n D ℝ} {costs' : List (Residual ℝ)} (hp : WellPosed env.p n)
    (hp' : WellPosed (withCosts env costs').p n) (hq : QuietCosts env.p.costs) (hq' : QuietCosts costs')
    (h : SameSquares n D env.p.costs costs') (x : Fin n → ℝ) :
    evalErrors (withCosts env costs').p x = evalErrors env.p x := by
  have e1 : evalCosts x env.p.costs 0 = .ok (costAt env.p x) :=
    (evalCosts_ok x env.p.costs 0 _).mpr ⟨fun r hr => ⟨hp.idx r (by simp [hr]), (hq r hr _).1⟩, rfl⟩
  have e2 : evalCosts x (withCosts env costs').p.costs 0 = .ok (costAt (withCosts env costs').p x) :=
    (evalCosts_ok x (withCosts env costs').p.costs 0 _).mpr
      ⟨fun r hr => ⟨hp'.idx r (List.mem_append_left _ hr), (hq' r hr _).1⟩, rfl⟩
  have e3 : costAt (withCosts env costs').p x = costAt env.p x := by
    rw [costAt_real, costAt_real, List.sum_map_mul_left, List.sum_map_mul_left, squares_values h x]
    rfl
  unfold evalErrors
  rw [e1, e2, e3]
  rfl

section grouped

variable {env : Env n D ℝ} {costs' : List (Residual ℝ)}
  (hlin : ∀ (x : Fin n → ℝ) (lambda : ℝ) (qp : QPData D env.p.M env.p.K ℝ),
    linearize (withCosts env costs').p x lambda qp = linearize env.p x lambda qp)
  (hev : ∀ x : Fin n → ℝ, evalErrors (withCosts env costs').p x = evalErrors env.p x)

include hev in
theorem grouped_lsLoop (prm : NLSParams ℝ) (x : Fin n → ℝ) (dx : Fin D → ℝ) (pre : Errors ℝ) (d : DirectionalDerivatives ℝ)
    (pen : ℝ) : ∀ (fuel iter : Nat) (a : ℝ) (steps : List (LineSearchStep ℝ)) (cand : Fin n → ℝ),
    lsLoop (withCosts env costs') prm x dx pre d pen fuel iter a steps cand
      = lsLoop env prm x dx pre d pen fuel iter a steps cand := by
  intro fuel
  induction fuel with
  | zero => intros; rfl
  | succ fuel ih =>
    intros
    simp only [lsLoop, ih, hev]
    rfl

include hev in
theorem grouped_selectStepSize (prm : NLSParams ℝ) (pre : Errors ℝ) (d : DirectionalDerivatives ℝ) (pen : ℝ) (o : env.Obj) :
    selectStepSize (withCosts env costs') prm pre d pen o = selectStepSize env prm pre d pen o := by
  unfold selectStepSize
  rw [grouped_lsLoop hev]
  cases lsLoop env prm o.vars o.dx pre d pen (prm.maxLineSearchIterations + 1).toNat 0 1 [] o.cand <;> rfl

theorem grouped_stepDirection (prm : NLSParams ℝ) (o : env.Obj) :
    stepDirection (withCosts env costs') prm o = stepDirection env prm o := by
  obtain ⟨⟨c0, i0, e0⟩, R0, cb, E, NE, ev, fi, fn, rt, ct⟩ := env
  obtain ⟨qp, sol, c, d, e, f, g⟩ := o
  unfold stepDirection withCosts
  dsimp only at *
  cases sol with
  | ip st =>
    dsimp only
    cases checkIndices D (List.ofFn qp.con) with
    | error e => rfl
    | ok u =>
      dsimp only
      by_cases h : ∀ i, 0 ≤ (qp.con i).var ∧ (qp.con i).var < (D : Int)
      · rw [dif_pos h, dif_pos h]
        have e1 : qpParams (⟨costs', i0, e0⟩ : Problem D ℝ) prm = qpParams (⟨c0, i0, e0⟩ : Problem D ℝ) prm := rfl
        rw [e1]
        cases IP.solve E (qp.typed h) (qpParams (⟨c0, i0, e0⟩ : Problem D ℝ) prm) (IP.setupState st) <;> rfl
      · rw [dif_neg h, dif_neg h]
  | ns st => dsimp only

/-- A loop state, seen by the solver with the other costs. -/
def asGrouped (s : Loop env) : Loop (withCosts env costs') := ⟨s.obj, s.lambda, s.penalty, s.log, s.calls⟩

include hlin hev in
theorem grouped_body (prm : NLSParams ℝ) (iter : Nat) (s : Loop env) :
    body (withCosts env costs') prm iter (asGrouped s) = match body env prm iter s with
      | .error e => .error e
      | .ok (s1, t) => .ok (asGrouped s1, t) := by
  have e1 : linearize (withCosts env costs').p (asGrouped (costs' := costs') s).obj.vars (asGrouped (costs' := costs') s).lambda
      (asGrouped (costs' := costs') s).obj.qp = linearize env.p s.obj.vars s.lambda s.obj.qp := hlin _ _ _
  cases h1 : linearize env.p s.obj.vars s.lambda s.obj.qp with
  | error e =>
    rw [h1] at e1
    have b : body env prm iter s = .error (e.1, { s.obj with qp := e.2 }) := by unfold body; rw [h1]
    rw [b]
    unfold body; rw [e1]; rfl
  | ok q =>
  obtain ⟨qp, pre⟩ := q
  rw [h1] at e1
  cases h2 : stepDirection env prm ({ s.obj with qp := qp } : env.Obj) with
  | error e =>
    have e2 := (grouped_stepDirection (costs' := costs') prm _).trans h2
    have b : body env prm iter s = .error e := by unfold body; rw [h1]; simp only; rw [h2]
    rw [b]
    unfold body; rw [e1]; simp only; erw [e2]
  | ok q =>
  obtain ⟨o1, out⟩ := q
  have e2 := (grouped_stepDirection (costs' := costs') prm _).trans h2
  by_cases hind : wasIndefinite out = true
  · have b : body env prm iter s = .ok ({ s with obj := o1 }, some .qpIndefinite) := by
      unfold body; rw [h1]; simp only; rw [h2]; simp only; rw [if_pos hind]
    rw [b]
    unfold body; rw [e1]; simp only; erw [e2]; simp only; rw [if_pos hind]; rfl
  cases h3 : selectStepSize env prm pre (costDerivative o1.qp o1.dx)
      (raisePenalty env.p prm o1.qp o1.dx out s.penalty) o1 with
  | error e =>
    have e3 := (grouped_selectStepSize hev prm _ _ _ _).trans h3
    have b : body env prm iter s = .error e := by
      unfold body; rw [h1]; simp only; rw [h2]; simp only; rw [if_neg hind, h3]
    rw [b]
    unfold body; rw [e1]; simp only; erw [e2]; simp only; rw [if_neg hind]; erw [e3]
  | ok q =>
  obtain ⟨o2, res⟩ := q
  have e3 := (grouped_selectStepSize hev prm _ _ _ _).trans h3
  cases h4 : updateLambda env prm res pre (raisePenalty env.p prm o1.qp o1.dx out s.penalty) s.lambda o2 with
  | error e =>
    have e4 : updateLambda (withCosts env costs') prm res pre
      (raisePenalty (withCosts env costs').p prm o1.qp o1.dx out (asGrouped (costs' := costs') s).penalty)
      (asGrouped (costs' := costs') s).lambda o2 = .error e := h4
    have b : body env prm iter s = .error e := by
      unfold body; rw [h1]; simp only; rw [h2]; simp only; rw [if_neg hind, h3]; simp only; rw [h4]
    rw [b]
    unfold body; rw [e1]; simp only; erw [e2]; simp only; rw [if_neg hind]; erw [e3]; simp only; rw [e4]
  | ok q =>
  obtain ⟨o3, lam, ex⟩ := q
  have a := body_eq (env := withCosts env costs') (s := asGrouped s) (iter := iter) e1 e2 hind e3 h4
  have b := body_eq (env := env) (s := s) (iter := iter) h1 h2 hind h3 h4
  rw [a, b]
  cases hcf : callbackFails env (entry env prm iter s.lambda s.penalty pre out o1 o3 res) s.calls with
  | true => exact (if_pos hcf).trans rfl
  | false => exact (if_neg fun hh => by cases hcf.symm.trans hh).trans rfl

include hlin hev in
theorem grouped_loop (prm : NLSParams ℝ) : ∀ (fuel iter : Nat) (s : Loop env),
    loop (withCosts env costs') prm fuel iter (asGrouped s) = match loop env prm fuel iter s with
      | .error e => .error e
      | .ok (s1, t) => .ok (asGrouped s1, t) := by
  intro fuel
  induction fuel with
  | zero => intros; rfl
  | succ fuel ih =>
    intro iter s
    simp only [loop]
    rw [grouped_body hlin hev]
    cases body env prm iter s with
    | error e => rfl
    | ok q =>
      obtain ⟨s1, t⟩ := q
      cases t with
      | some t => rfl
      | none => exact ih _ _

end grouped

/-- **C135** (exact arithmetic). Two problems that differ only in the residuals their sum of squares is written with - at every point and
for every step the linear models have the same sum of squares - are solved alike: same exception or same result, same log including
the QP solver's outputs and the eigenvalues, same object. -/
theorem C135_squares (env : Env n D ℝ) (costs' : List (Residual ℝ)) (hp : WellPosed env.p n)
    (hp' : WellPosed (withCosts env costs').p n) (hq : ∀ r ∈ env.p.costs, NeverThrows r) (hq' : ∀ r ∈ costs', NeverThrows r)
    (h : SameSquares n D env.p.costs costs') (prm : NLSParams ℝ) (x0 : Fin n → ℝ) (o : env.Obj) :
    solve (withCosts env costs') prm x0 o = solve env prm x0 o := by
  have hlin := fun (x : Fin n → ℝ) lambda qp => grouped_linearize hp hp' hq hq' h x lambda qp
  have hev := fun (x : Fin n → ℝ) => grouped_evalErrors hp hp' hq hq' h x
  unfold solve
  cases NLS.checkParams prm with
  | error e => rfl
  | ok u =>
    have h0 : start (withCosts env costs') prm x0 o = asGrouped (start env prm x0 o) := by
      obtain ⟨qp, sol, c, d, e, f, g⟩ := o
      cases sol <;> rfl
    dsimp only
    rw [h0, grouped_loop hlin hev]
    cases loop env prm prm.maxIterations.toNat 0 (start env prm x0 o) <;> rfl

theorem rotated_index (r : Residual ℝ) {m : Nat} (Q : Fin m → Fin r.dim → ℝ) : (rotatedResidual r Q).index = r.index := rfl

theorem rotated_model (r : Residual ℝ) {m : Nat} (Q : Fin m → Fin r.dim → ℝ) (x : Fin n → ℝ) (d : Fin D → ℝ) (k : Fin m) :
    linAt (rotatedResidual r Q) x d k = ∑ l, Q k l * linAt r x d l := by
  have hj : ∀ j : Fin D, jacAt (rotatedResidual r Q) x D k j = ∑ l, Q k l * jacAt r x D l j := by
    intro j
    show (∑ p : Fin r.P, if r.index p = (j.val : Int) then ∑ l, Q k l * r.jac (params r x) l p else 0)
      = ∑ l, Q k l * ∑ p : Fin r.P, if r.index p = (j.val : Int) then r.jac (params r x) l p else 0
    simp only [Finset.mul_sum]
    rw [Finset.sum_comm]
    refine Finset.sum_congr rfl fun p _ => ?_
    by_cases hp : r.index p = (j.val : Int)
    · simp only [if_pos hp]
    · simp only [if_neg hp, mul_zero, Finset.sum_const_zero]
  have hv : valueAt (rotatedResidual r Q) x k = ∑ l, Q k l * valueAt r x l := rfl
  rw [show linAt (rotatedResidual r Q) x d k = valueAt (rotatedResidual r Q) x k
    + ∑ j, jacAt (rotatedResidual r Q) x D k j * d j from rfl, hv]
  unfold linAt
  simp only [hj, mul_add, Finset.sum_add_distrib]
  congr 1
  simp only [Finset.sum_mul, Finset.mul_sum]
  rw [Finset.sum_comm]
  exact Finset.sum_congr rfl fun l _ => Finset.sum_congr rfl fun j _ => by ring

theorem wellPosed_costs {env : Env n D ℝ} {costs' : List (Residual ℝ)} (hp : WellPosed env.p n)
    (h : ∀ r' ∈ costs', ∃ r ∈ env.p.costs, (IdxIn r n → IdxIn r' n) ∧ (IdxIn r D → IdxIn r' D) ∧ (Distinct r → Distinct r') ∧
      (Consistent r → Consistent r')) : WellPosed (withCosts env costs').p n := by
  have mem : ∀ r', r' ∈ costs' ++ env.p.eqs → r' ∈ costs' ∨ r' ∈ env.p.costs ++ env.p.eqs := by
    intro r' hr
    rcases List.mem_append.mp hr with hr | hr
    · exact .inl hr
    · exact .inr (List.mem_append_right _ hr)
  refine ⟨fun r' hr => ?_, fun r' hr => ?_, fun r' hr => ?_, fun r' hr => ?_, hp.ineq⟩
  · rcases mem r' hr with hr | hr
    · obtain ⟨r, h1, h2, -⟩ := h r' hr; exact h2 (hp.idx r (List.mem_append_left _ h1))
    · exact hp.idx r' hr
  · rcases mem r' hr with hr | hr
    · obtain ⟨r, h1, -, h2, -⟩ := h r' hr; exact h2 (hp.idxD r (List.mem_append_left _ h1))
    · exact hp.idxD r' hr
  · rcases mem r' hr with hr | hr
    · obtain ⟨r, h1, -, -, h2, -⟩ := h r' hr; exact h2 (hp.distinct r (List.mem_append_left _ h1))
    · exact hp.distinct r' hr
  · rcases mem r' hr with hr | hr
    · obtain ⟨r, h1, -, -, -, h2⟩ := h r' hr; exact h2 (hp.consistent r (List.mem_append_left _ h1))
    · exact hp.consistent r' hr

/-- **C135** (rotated residuals). Replacing every cost residual `r` by `Q r`, where the table `Q` keeps lengths (a rotation, a permutation
or sign change of the components, zeros appended), changes nothing. -/
theorem C135_rotated (env : Env n D ℝ) (m : Residual ℝ → Nat) (Q : ∀ r : Residual ℝ, Fin (m r) → Fin r.dim → ℝ)
    (hQ : ∀ r ∈ env.p.costs, KeepsLength (Q r)) (hp : WellPosed env.p n) (hq : ∀ r ∈ env.p.costs, NeverThrows r)
    (prm : NLSParams ℝ) (x0 : Fin n → ℝ) (o : env.Obj) :
    solve (withCosts env (env.p.costs.map fun r => rotatedResidual r (Q r))) prm x0 o = solve env prm x0 o := by
  refine C135_squares env _ hp (wellPosed_costs hp ?_) hq ?_ ?_ prm x0 o
  · intro r' hr'
    obtain ⟨r, hr, rfl⟩ := List.mem_map.mp hr'
    refine ⟨r, hr, id, id, id, fun hc p => ?_⟩
    funext k
    show ∑ l, Q r k l * r.valueJ p l = ∑ l, Q r k l * r.value p l
    rw [hc p]
  · intro r' hr'
    obtain ⟨r, hr, rfl⟩ := List.mem_map.mp hr'
    exact fun p => hq r hr p
  · intro x d
    rw [List.map_map]
    refine congrArg List.sum (List.map_congr_left fun r hr => ?_)
    rw [← hQ r hr fun l => linAt r x d l]
    refine Finset.sum_congr rfl fun k _ => ?_
    exact congrArg (· ^ 2) (rotated_model r (Q r) x d k).symm

/-- **C135** (components). Replacing every cost residual by its components, as residuals of their own, changes nothing. -/
theorem C135_components (env : Env n D ℝ) (hp : WellPosed env.p n) (hq : ∀ r ∈ env.p.costs, NeverThrows r)
    (prm : NLSParams ℝ) (x0 : Fin n → ℝ) (o : env.Obj) :
    solve (withCosts env (env.p.costs.flatMap componentsOf)) prm x0 o = solve env prm x0 o := by
  have hm : ∀ r', r' ∈ env.p.costs.flatMap componentsOf → ∃ r ∈ env.p.costs, ∃ k, r' = componentOf r k := by
    intro r' hr'
    obtain ⟨r, hr, h⟩ := List.mem_flatMap.mp hr'
    obtain ⟨k, -, rfl⟩ := List.mem_map.mp h
    exact ⟨r, hr, k, rfl⟩
  refine C135_squares env _ hp (wellPosed_costs hp ?_) hq ?_ ?_ prm x0 o
  · intro r' hr'
    obtain ⟨r, hr, k, rfl⟩ := hm r' hr'
    refine ⟨r, hr, id, id, id, fun hc p => ?_⟩
    funext _
    exact congrFun (hc p) k
  · intro r' hr'
    obtain ⟨r, hr, k, rfl⟩ := hm r' hr'
    exact fun p => hq r hr p
  · intro x d
    have key : ∀ l : List (Residual ℝ), (l.map fun r => ∑ k, linAt r x d k ^ 2).sum
        = ((l.flatMap componentsOf).map fun r => ∑ k, linAt r x d k ^ 2).sum := by
      intro l
      induction l with
      | nil => rfl
      | cons r l ih =>
        rw [List.flatMap_cons, List.map_append, List.sum_append, List.map_cons, List.sum_cons, ih]
        congr 1
        unfold componentsOf
        rw [List.map_map, ← List.ofFn_eq_map, List.sum_ofFn]
        refine Finset.sum_congr rfl fun k _ => ?_
        show linAt r x d k ^ 2 = ∑ _i : Fin 1, linAt r x d k ^ 2
        rw [Fin.sum_univ_one]
    exact key _

end MiniOpt.Props
