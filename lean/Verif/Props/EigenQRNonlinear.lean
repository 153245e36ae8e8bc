import Verif.Props.EigenQR
import Verif.Props.EigenLDLTNonlinear

/-!
# C114: scaling of equality constraints in the nonlinear solver
-/

set_option autoImplicit false

namespace MiniOpt.Props

open MiniOpt.Spec MiniOpt.NLS

variable {n D : Nat}

/-- The gradients of a list of residuals, one row for each scalar. -/
noncomputable def gradients (x : Fin n → ℝ) : List (Residual ℝ) → List (Fin D → ℝ)
  | [] => []
  | r :: rs => (List.ofFn fun k => jacAt r x D k) ++ gradients x rs

theorem model_zip (x : Fin n → ℝ) (dx : Fin D → ℝ) : ∀ l : List (Residual ℝ),
    stackedModel x dx l = List.zipWith (fun (row : Fin D → ℝ) v => (∑ j, row j * dx j) + v) (gradients x l) (stackedValues x l)
  | [] => rfl
  | r :: rs => by
    unfold stackedModel gradients stackedValues
    rw [List.zipWith_append (by simp), ← model_zip x dx rs]
    congr 1
    apply List.ext_getElem?
    intro k
    simp only [List.getElem?_zipWith, List.getElem?_ofFn]
    split_ifs with hk
    · simp only [linAt]; rw [add_comm]
    · rfl

theorem gradients_length (x : Fin n → ℝ) : ∀ l : List (Residual ℝ), (gradients (D := D) x l).length = (stackedValues x l).length
  | [] => rfl
  | r :: rs => by simp [gradients, stackedValues, gradients_length x rs]

/-- The matrix handed to the null-space solver has the gradients of the constraints as rows. -/
theorem linearize_rows {p : Problem D ℝ} (hp : WellPosed p n) {x : Fin n → ℝ} {lam : ℝ} {qp0 qp : QPData D p.M p.K ℝ}
    {pre : Errors ℝ} (hl : linearize p x lam qp0 = .ok (qp, pre)) : List.ofFn qp.A = gradients x p.eqs := by
  obtain ⟨-, -, hA, hb, -⟩ := linearize_facts hp hl
  have hlen : (gradients (D := D) x p.eqs).length = p.K := by
    rw [gradients_length, ← hb, List.length_ofFn]
  refine List.ext_getElem (by rw [List.length_ofFn, hlen]) fun k hk1 hk2 => ?_
  have hk : k < p.K := by rw [← hlen]; exact hk2
  rw [List.getElem_ofFn]
  set row : Fin D → ℝ := (gradients (D := D) x p.eqs)[k] with hrow
  have hmod : ∀ dx : Fin D → ℝ, (∑ j, qp.A ⟨k, hk⟩ j * dx j) + qp.b ⟨k, hk⟩ = (∑ j, row j * dx j) + qp.b ⟨k, hk⟩ := fun dx => by
    have h := congrArg (fun l : List ℝ => l[k]?) ((hA dx).trans (model_zip x dx p.eqs))
    rw [← hb, List.getElem?_zipWith, List.getElem?_ofFn, List.getElem?_ofFn, dif_pos hk, dif_pos hk,
      List.getElem?_eq_getElem hk2] at h
    exact Option.some.inj h
  funext j
  have h1 := hmod fun i => if i = j then 1 else 0
  simpa using h1

/-- **C114** (undefined behaviour). Take a well-posed problem with equality but no inequality constraints, and a start at which
the gradient of one scalar constraint is at most `K eps` times as long as that of another, `K` being the number of scalar
constraints. Then the first iteration is undefined behaviour, whatever the costs and the other parameters, although the
constraints may be independent. -/
theorem C114_ub (env : Env n D ℝ) (eps dd : ℝ) (he : 0 ≤ eps) (hE : env.NE = QR.eigenNS eps 0 dd) (hp : WellPosed env.p n)
    (hi : env.p.ineq = []) (prm : NLSParams ℝ) (hprm : NLSParamsValid prm) (hk : 1 ≤ prm.maxIterations)
    (hq : ¬ UserThrows env) (x0 : Fin n → ℝ)
    (hbad : ∃ g ∈ gradients (D := D) x0 env.p.eqs, ∃ g' ∈ gradients (D := D) x0 env.p.eqs, norm2 g ≤ env.p.K * eps * norm2 g')
    (o : env.Obj) : ∃ tag o', solve env prm x0 o = .error (.ub tag, o') := by
  obtain ⟨g, hg, g', hg', hle⟩ := hbad
  have heq : env.p.eqs ≠ [] := fun h => by rw [h] at hg; simp [gradients] at hg
  have hns : UsesNullSpace env.p := ⟨hi, heq⟩
  obtain ⟨m, hm⟩ : ∃ m, prm.maxIterations.toNat = m + 1 := ⟨prm.maxIterations.toNat - 1, by omega⟩
  obtain ⟨st, hst⟩ : ∃ st, (start env prm x0 o).obj.solver = .ns st := by
    unfold start chooseSolver
    dsimp only
    rw [if_pos (show env.p.ineq = [] ∧ env.p.eqs ≠ [] from hns)]
    cases o.solver <;> exact ⟨_, rfl⟩
  rcases linearize_total hp.idx hp.idxD (fun c hc => ⟨(hp.ineq c hc).1, (hp.ineq c hc).2.1⟩) x0 prm.lambdaInitial o.qp with
    ⟨qp, pre, hl⟩ | ⟨_, h⟩
  swap
  · exact absurd h hq
  have hrows := linearize_rows hp hl
  obtain ⟨i, hi1⟩ := (List.mem_ofFn' _ _).mp (by rw [hrows]; exact hg : g ∈ List.ofFn qp.A)
  obtain ⟨i', hi2⟩ := (List.mem_ofFn' _ _).mp (by rw [hrows]; exact hg' : g' ∈ List.ofFn qp.A)
  obtain ⟨tag, hub⟩ := (C113_when eps dd he (⟨qp.G, qp.c, qp.A, qp.b, Fin.elim0⟩ : QP D 0 env.p.K ℝ) i.pos st).2
    ⟨i, i', by rw [← hi1, ← hi2] at hle; exact hle⟩
  have hdir : ∃ o1, stepDirection env prm { (start env prm x0 o).obj with qp := qp } = .error (.ub tag, o1) := by
    unfold stepDirection
    simp only [hst]
    rw [hE, hub]
    exact ⟨_, rfl⟩
  obtain ⟨o1, hdir⟩ := hdir
  have hl' : linearize env.p (start env prm x0 o).obj.vars (start env prm x0 o).lambda (start env prm x0 o).obj.qp = .ok (qp, pre) := hl
  refine ⟨tag, o1, ?_⟩
  unfold solve
  rw [(checkParams_iff prm).mpr hprm, hm]
  dsimp only
  unfold loop body
  rw [hl']
  dsimp only
  rw [hdir]

/-- **C114** (returns). If wherever the constraints are evaluated each gradient keeps a distance of `K eps` times the longest
gradient from the span of the others, `Solve` returns. -/
theorem C114_returns (env : Env n D ℝ) (eps dd : ℝ) (he : 0 ≤ eps) (hE : env.NE = QR.eigenNS eps 0 dd) (hp : WellPosed env.p n)
    (hr : n = D ∨ env.retraction ≠ none) (hi : env.p.ineq = []) (heq : 0 < env.p.K)
    (prm : NLSParams ℝ) (hprm : NLSParamsValid prm) (hpen : 0 < prm.equalityPenaltyInitial) (hq : ¬ UserThrows env)
    (hsep : ∀ (x : Fin n → ℝ) (A : Fin env.p.K → Fin D → ℝ), List.ofFn A = gradients x env.p.eqs → Separated (env.p.K * eps) A)
    (x0 : Fin n → ℝ) (o : env.Obj) : ∃ r, solve env prm x0 o = .ok r := by
  have hne : env.p.eqs ≠ [] := fun h => by simp [Problem.K, h] at heq
  have hns : UsesNullSpace env.p := ⟨hi, hne⟩
  have hloop : ∀ (fuel iter : Nat) (s : Loop env), Good env s → ∃ r, loop env prm fuel iter s = .ok r := by
    intro fuel
    induction fuel with
    | zero => intro iter s _; exact ⟨_, rfl⟩
    | succ f ih =>
      intro iter s hs
      rcases body_total_gen hp hr hprm iter hs (T := fun _ => False) (fun _ _ hu => hq hu) (fun qp pre hl => by
        left
        obtain ⟨st, hst⟩ := (hs.kind.resolve_right fun h => h.1 hns).2
        obtain ⟨r, hr⟩ := (C113_when eps dd he (⟨qp.G, qp.c, qp.A, qp.b, Fin.elim0⟩ : QP D 0 env.p.K ℝ) heq st).1
          (hsep _ qp.A (linearize_rows hp hl))
        unfold stepDirection
        simp only [hst]
        rw [hE, hr]
        obtain ⟨st', t⟩ := r
        cases t with
        | success => exact ⟨_, _, rfl, Or.inl ⟨hns, st', rfl⟩⟩
        | notPositiveDefinite => exact ⟨_, _, rfl, Or.inl ⟨hns, st', rfl⟩⟩) with ⟨s', t, hb, hg⟩ | ⟨e, _, hf⟩
      swap
      · exact absurd hf id
      unfold loop
      rw [hb]
      cases t with
      | none => exact ih (iter + 1) s' hg
      | some t => exact ⟨_, rfl⟩
  unfold solve
  rw [(checkParams_iff prm).mpr hprm]
  dsimp only
  have hstart : Good env (start env prm x0 o) := by
    refine ⟨hpen, Or.inl ⟨hns, ?_⟩⟩
    unfold start chooseSolver
    dsimp only
    rw [if_pos (show env.p.ineq = [] ∧ env.p.eqs ≠ [] from hns)]
    cases o.solver <;> exact ⟨_, rfl⟩
  obtain ⟨⟨s, t⟩, h⟩ := hloop prm.maxIterations.toNat 0 _ hstart
  rw [h]; exact ⟨_, rfl⟩

end MiniOpt.Props
