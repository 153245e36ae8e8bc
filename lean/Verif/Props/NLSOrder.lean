import Verif.Props.QPOrder
import Verif.Props.Exceptions

/-!
# C83: the order in which costs and bounds are listed does not matter

The whole run of `ConstrainedNonlinearLeastSquares::Solve` on a problem whose costs and bounds are listed in another
order. Exact arithmetic: over the reals, sums do not depend on their order (rounded sums do). The linear algebra
(`env.E`, `env.NE`), the user's callback and the retraction are the same functions on both sides. The bounds have to be
consistent: with crossing bounds the clamp of the initial guess depends on the order (`C82_inconsistent_bounds`).
-/

set_option autoImplicit false

namespace MiniOpt.Props

open MiniOpt.Spec MiniOpt.NLS

/-- A permutation of lists as a renumbering of positions. -/
theorem perm_equiv {β : Type} {l l' : List β} (h : l.Perm l') :
    ∃ e : Fin l'.length ≃ Fin l.length, ∀ i, l'.get i = l.get (e i) := by
  induction h with
  | nil => exact ⟨Equiv.refl _, fun _ => rfl⟩
  | @cons a l l' _ ih =>
    obtain ⟨e, he⟩ := ih
    refine ⟨(finSuccEquiv l'.length).trans (e.optionCongr.trans (finSuccEquiv l.length).symm), fun i => ?_⟩
    refine Fin.cases ?_ (fun j => ?_) i
    · simp
    · have := he j
      simpa using this
  | swap a b l =>
    refine ⟨Equiv.swap (0 : Fin (l.length + 2)) 1, fun i => ?_⟩
    refine Fin.cases ?_ (fun j => ?_) i
    · have e : (Equiv.swap (0 : Fin (l.length + 2)) 1) 0 = 1 := Equiv.swap_apply_left _ _
      show a = (b :: a :: l).get _
      rw [e]; rfl
    · refine Fin.cases ?_ (fun k => ?_) j
      · have e : (Equiv.swap (0 : Fin (l.length + 2)) 1) 1 = 0 := Equiv.swap_apply_right _ _
        show b = (b :: a :: l).get ((Equiv.swap (0 : Fin (l.length + 2)) 1) 1)
        rw [e]; rfl
      · have e : (Equiv.swap (0 : Fin (l.length + 2)) 1) k.succ.succ = k.succ.succ :=
          Equiv.swap_apply_of_ne_of_ne (by simp [Fin.ext_iff]) (by simp [Fin.ext_iff])
        show l.get k = (b :: a :: l).get ((Equiv.swap (0 : Fin (l.length + 2)) 1) k.succ.succ)
        rw [e]; rfl
  | trans _ _ ih1 ih2 =>
    obtain ⟨e1, h1⟩ := ih1
    obtain ⟨e2, h2⟩ := ih2
    exact ⟨e2.trans e1, fun i => by rw [h2 i, h1 (e2 i)]; rfl⟩

/-- The QP solver on reordered constraints. -/
theorem solve_order {N M M' K : Nat} (e : Fin M' ≃ Fin M) (E : Eigen N K ℝ) (q : QP N M K ℝ) (q' : QP N M' K ℝ)
    (hG : q'.G = q.G) (hc : q'.c = q.c) (hA : q'.A = q.A) (hb : q'.b = q.b) (hcon : ∀ m, q'.con m = q.con (e m))
    (prm : QPParams ℝ) (hu : prm.initialGuessMethod ≠ .userProvided) (hbox : ∃ w : Fin N → ℝ, ∀ m, 0 ≤ ineqVal q w m)
    (st : IPState N M K ℝ) (st' : IPState N M' K ℝ) (hw : IP.WF st) (hw' : IP.WF st') :
    Both (fun a a' => a'.1.v.x = a.1.v.x ∧ a'.2 = a.2) (IP.solve E q prm st) (IP.solve E q' prm st') := by
  obtain rfl : M' = M := by simpa using Fintype.card_congr e
  have hl : Relabelled (Equiv.refl _) (Equiv.refl _) e q q' := by
    refine ⟨fun i j => ?_, fun i => congrFun hc i, fun k i => congrFun (congrFun hA k) i, fun k => congrFun hb k,
      fun m => ?_, fun m => ?_, fun m => ?_⟩
    · show q'.G _ _ = q.G _ _
      rw [hG]; rfl
    · rw [hcon]; rfl
    · rw [hcon]
    · rw [hcon]
  rcases solve_rel (respects_refl E) hl prm (fun _ => hbox) (st := st) (st' := st') (fun h => absurd h hu) hw hw' with
    h | ⟨a, a', e1, e2, hv, ho⟩
  · exact .inl h
  · exact .inr ⟨a, a', e1, e2, by rw [hv]; rfl, ho⟩

variable {n D : Nat}

/-- The same problem and solver with the costs and the bounds listed in another order (and other uninitialised memory). -/
def reordered (env : Env n D ℝ) (costs' : List (Residual ℝ)) (ineq' : List (Ineq ℝ))
    (fip : IPState D ineq'.length env.p.K ℝ) (fns : NSState D ℝ) : Env n D ℝ where
  p := ⟨costs', ineq', env.p.eqs⟩
  retraction := env.retraction
  callback := env.callback
  E := env.E
  NE := env.NE
  eigenvalues := env.eigenvalues
  freshIP := fip
  freshNS := fns
  retractionThrows := env.retractionThrows
  callbackThrows := env.callbackThrows

section sim

variable {env : Env n D ℝ} {costs' : List (Residual ℝ)} {ineq' : List (Ineq ℝ)}
  {fip : IPState D ineq'.length env.p.K ℝ} {fns : NSState D ℝ}

theorem evalErrors_reordered (hc : env.p.costs.Perm costs') (x : Fin n → ℝ) (es : Errors ℝ)
    (h : evalErrors env.p x = .ok es) : evalErrors (reordered env costs' ineq' fip fns).p x = .ok es :=
  (C33_evaluate_order env.p costs' hc x es).mp h

theorem retract_reordered (x : Fin n → ℝ) (dx : Fin D → ℝ) (a : ℝ) :
    retract (reordered env costs' ineq' fip fns) x dx a = retract env x dx a := rfl

theorem lsLoop_reordered (hc : env.p.costs.Perm costs') (prm : NLSParams ℝ) (x : Fin n → ℝ) (dx : Fin D → ℝ)
    (pre : Errors ℝ) (d : DirectionalDerivatives ℝ) (pen : ℝ) : ∀ (fuel iter : Nat) (a : ℝ)
    (steps : List (LineSearchStep ℝ)) (cand cand2 : Fin n → ℝ) (r), lsLoop env prm x dx pre d pen fuel iter a steps cand = .ok r →
    ∃ c, lsLoop (reordered env costs' ineq' fip fns) prm x dx pre d pen fuel iter a steps cand2 = .ok (r.1, r.2.1, c) ∧
      (r.1 = .success → c = r.2.2) := by
  intro fuel
  induction fuel with
  | zero =>
    intro iter a steps cand cand2 r h
    simp only [lsLoop, Except.ok.injEq] at h
    subst h
    exact ⟨cand2, rfl, by simp⟩
  | succ fuel ih =>
    intro iter a steps cand cand2 r h
    simp only [lsLoop] at h ⊢
    cases hn : nextAlpha prm.lineSearchStrategy prm.armijoSearchTau iter pre d pen a steps with
    | error e => rw [hn] at h; cases h
    | ok q =>
      rw [hn] at h
      cases q with
      | none =>
        simp only [Except.ok.injEq] at h ⊢
        subst h
        exact ⟨cand2, rfl, by simp⟩
      | some a' =>
        simp only at h ⊢
        rw [retract_reordered]
        cases hr : retract env x dx a' with
        | error e => rw [hr] at h; cases h
        | ok c' =>
          rw [hr] at h
          simp only at h ⊢
          cases he : evalErrors env.p c' with
          | error e => rw [he] at h; cases h
          | ok es =>
            rw [he] at h
            rw [evalErrors_reordered hc c' es he]
            simp only at h ⊢
            split_ifs at h ⊢
            · cases h; exact ⟨_, rfl, fun _ => rfl⟩
            · cases h; exact ⟨_, rfl, fun _ => rfl⟩
            · cases h; exact ⟨_, rfl, fun _ => rfl⟩
            · cases h; exact ⟨_, rfl, fun _ => rfl⟩
            · exact ih _ _ _ _ _ _ h

/-- Both QPs are the same, up to the order of the constraints. -/
structure QRel (e : Fin ineq'.length ≃ Fin env.p.M) (q : QPData D env.p.M env.p.K ℝ)
    (q' : QPData D ineq'.length env.p.K ℝ) : Prop where
  G : q'.G = q.G
  c : q'.c = q.c
  A : q'.A = q.A
  b : q'.b = q.b
  con : ∀ m, q'.con m = q.con (e m)

theorem linearize_reordered (hc : env.p.costs.Perm costs') (e : Fin ineq'.length ≃ Fin env.p.M)
    (he : ∀ i, ineq'.get i = env.p.ineq.get (e i)) (x : Fin n → ℝ) (lam : ℝ) (qp : QPData D env.p.M env.p.K ℝ)
    (qp' : QPData D ineq'.length env.p.K ℝ) (q : QPData D env.p.M env.p.K ℝ) (pre : Errors ℝ)
    (h : linearize env.p x lam qp = .ok (q, pre)) :
    ∃ q' : QPData D ineq'.length env.p.K ℝ,
      linearize (reordered env costs' ineq' fip fns).p x lam qp' = .ok (q', pre) ∧ QRel e q q' ∧
      (∀ c ∈ env.p.ineq, 0 ≤ c.var ∧ c.var < (n : Int)) ∧
      ∀ i : Fin env.p.M, q.con i = ⟨(env.p.ineq.get i).var, (env.p.ineq.get i).a, boundAt (env.p.ineq.get i) x⟩ := by
  have h1 := (C33_linearize_order env.p costs' hc x lam qp (q, pre)).mp h
  unfold linearize at h1 ⊢
  simp only [reordered] at h1 ⊢
  cases hcs : linCosts x costs' (fun _ (_ : Fin D) => (0 : ℝ)) (fun _ => 0) 0 with
  | error w => rw [hcs] at h1; cases h1
  | ok w =>
    obtain ⟨G, c, f⟩ := w
    rw [hcs] at h1
    simp only at h1 ⊢
    cases hes : linEqs x env.p.eqs 0 (fun (_ : Fin env.p.K) (_ : Fin D) => (0 : ℝ)) (fun _ => 0) 0 with
    | error w =>
      have : linEqs x env.p.eqs 0 (fun (_ : Fin (⟨costs', env.p.ineq, env.p.eqs⟩ : Problem D ℝ).K) (_ : Fin D) => (0 : ℝ))
        (fun _ => 0) 0 = .error w := hes
      rw [this] at h1; cases h1
    | ok w =>
      obtain ⟨A, b, err⟩ := w
      have e1 : linEqs x env.p.eqs 0 (fun (_ : Fin (⟨costs', env.p.ineq, env.p.eqs⟩ : Problem D ℝ).K) (_ : Fin D) => (0 : ℝ))
        (fun _ => 0) 0 = .ok (A, b, err) := hes
      rw [e1] at h1
      simp only at h1 ⊢
      cases hs : shiftLoop x env.p.ineq with
      | error w => rw [hs] at h1; cases h1
      | ok con =>
        rw [hs] at h1
        have hs0 := (shiftLoop_ok x env.p.ineq con).mp hs
        have hs1 : shiftLoop x ineq' = .ok fun m => con (e m) := by
          refine (shiftLoop_ok x ineq' _).mpr ⟨fun c hcm => ?_, fun i => ?_⟩
          · obtain ⟨i, rfl⟩ := List.get_of_mem hcm
            rw [he i]
            exact hs0.1 _ (List.get_mem _ _)
          · rw [hs0.2 (e i), he i]
        rw [hs1]
        simp only [Except.ok.injEq, Prod.mk.injEq] at h1
        obtain ⟨rfl, rfl⟩ := h1
        exact ⟨_, rfl, ⟨rfl, rfl, rfl, rfl, fun _ => rfl⟩, hs0⟩

/-- Two solver members of the same kind. -/
def SameKind2 {D M K M' K' : Nat} : Solver D M K ℝ → Solver D M' K' ℝ → Prop
  | .ip _, .ip _ => True
  | .ns _, .ns _ => True
  | _, _ => False

/-- What the null space solver reports does not depend on its object. -/
theorem ns_frame {N K : Nat} (E : NSEigen ℝ) (p : QP N 0 K ℝ) (st st' : NSState N ℝ) :
    (∃ w, NS.solve E p st = .error w) ∨
    (NS.solve E p st = .ok (st, .notPositiveDefinite) ∧ NS.solve E p st' = .ok (st', .notPositiveDefinite)) ∨
    ∃ y, NS.solve E p st = .ok (y, .success) ∧ NS.solve E p st' = .ok (y, .success) := by
  unfold NS.solve
  dsimp only
  by_cases h0 : 0 < K
  · rw [if_neg (not_not.mpr h0), if_neg (not_not.mpr h0)]
    by_cases hK : K ≤ N
    · rw [dif_pos hK, dif_pos hK]
      split_ifs
      · exact .inl ⟨_, rfl⟩
      · cases E.llt (symLower (NS.reducedG p hK (E.qr p.A))) with
        | none => exact .inr (.inl ⟨rfl, rfl⟩)
        | some f => exact .inr (.inr ⟨_, rfl, rfl⟩)
    · rw [dif_neg hK]; exact .inl ⟨_, rfl⟩
  · rw [if_pos h0]; exact .inl ⟨_, rfl⟩

theorem stepDirection_reordered (prm : NLSParams ℝ) (e : Fin ineq'.length ≃ Fin env.p.M)
    {o : env.Obj} {o' : (reordered env costs' ineq' fip fns).Obj}
    (hk : SameKind2 o.solver o'.solver) (hv : o'.vars = o.vars) (hst : o'.state = o.state) (hq : QRel e o.qp o'.qp)
    (hfeas : ∃ w : Fin D → ℝ, ∀ m (hm : 0 ≤ (o.qp.con m).var ∧ (o.qp.con m).var < (D : Int)),
      0 ≤ (o.qp.con m).a * w ⟨(o.qp.con m).var.toNat, by omega⟩ + (o.qp.con m).b)
    {o1 : env.Obj} {out : QPResult ℝ} (h : stepDirection env prm o = .ok (o1, out)) :
    ∃ o1' : (reordered env costs' ineq' fip fns).Obj,
      stepDirection (reordered env costs' ineq' fip fns) prm o' = .ok (o1', out) ∧ o1'.dx = o1.dx ∧
      o1'.vars = o1.vars ∧ o1'.state = o1.state ∧ QRel e o1.qp o1'.qp ∧ SameKind2 o1.solver o1'.solver := by
  obtain ⟨qp, sol, vars, cand, dx, steps, state⟩ := o
  obtain ⟨qp', sol', vars', cand', dx', steps', state'⟩ := o'
  dsimp only at hk hv hst hq hfeas
  subst hv
  subst hst
  unfold stepDirection at h ⊢
  dsimp only at h ⊢
  cases sol with
  | ip st =>
    cases sol' with
    | ns st' => exact absurd hk (by simp [SameKind2])
    | ip st' =>
      dsimp only at h ⊢
      have hci : checkIndices D (List.ofFn qp'.con) = .ok () := by
        rcases checkIndices_ok D (List.ofFn qp'.con) with ⟨h1, -⟩ | ⟨-, h2⟩
        · exact h1
        · exfalso
          apply h2
          rcases checkIndices_ok D (List.ofFn qp.con) with ⟨-, h3⟩ | ⟨h3, -⟩
          · intro c hcm
            obtain ⟨i, rfl⟩ := (List.mem_ofFn' _ _).mp hcm
            show (qp'.con i).var < (D : Int)
            rw [show qp'.con i = qp.con (e i) from hq.con i]
            exact h3 _ ((List.mem_ofFn' _ _).mpr ⟨e i, rfl⟩)
          · rw [h3] at h; cases h
      cases hci0 : checkIndices D (List.ofFn qp.con) with
      | error w => rw [hci0] at h; cases h
      | ok u =>
        rw [hci0] at h
        rw [hci]
        dsimp only at h ⊢
        by_cases hin : ∀ i, 0 ≤ (qp.con i).var ∧ (qp.con i).var < (D : Int)
        · have hin' : ∀ i, 0 ≤ (qp'.con i).var ∧ (qp'.con i).var < (D : Int) := fun i => by
            rw [show qp'.con i = qp.con (e i) from hq.con i]; exact hin _
          rw [dif_pos hin] at h
          rw [dif_pos hin']
          obtain ⟨w, hw⟩ := hfeas
          have hsol := solve_order e env.E (qp.typed hin) (qp'.typed hin') hq.G hq.c hq.A hq.b
            (fun m => by
              have hm : qp'.con m = qp.con (e m) := hq.con m
              simp only [QPData.typed, hm])
            (qpParams env.p prm) (qpParams_guess env.p prm) ⟨w, fun m => hw m (hin m)⟩
            (IP.setupState st) (IP.setupState st') (fun _ _ => rfl) (fun _ _ => rfl)
          rcases hsol with ⟨f, a, a', e1, e2⟩ | ⟨⟨a, oo⟩, ⟨a', oo'⟩, e1, e2, hx, ho⟩
          · rw [e1] at h; cases h
          · rw [e1] at h
            dsimp only at hx ho
            subst ho
            have e2' : IP.solve (reordered env costs' ineq' fip fns).E (qp'.typed hin')
              (qpParams (reordered env costs' ineq' fip fns).p prm) (IP.setupState st') = .ok (a', oo') := e2
            rw [e2']
            simp only [Except.ok.injEq, Prod.mk.injEq] at h
            obtain ⟨rfl, rfl⟩ := h
            exact ⟨_, rfl, hx, rfl, rfl, hq, trivial⟩
        · rw [dif_neg hin] at h; cases h
  | ns st =>
    cases sol' with
    | ip st' => exact absurd hk (by simp [SameKind2])
    | ns st' =>
      dsimp only at h ⊢
      have hG : qp'.G = qp.G := hq.G
      have hc : qp'.c = qp.c := hq.c
      have hA : qp'.A = qp.A := hq.A
      have hb : qp'.b = qp.b := hq.b
      have hp : (⟨qp'.G, qp'.c, qp'.A, qp'.b, Fin.elim0⟩ : QP D 0 env.p.K ℝ) = ⟨qp.G, qp.c, qp.A, qp.b, Fin.elim0⟩ := by
        rw [hG, hc, hA, hb]
      have hf := ns_frame env.NE (⟨qp.G, qp.c, qp.A, qp.b, Fin.elim0⟩ : QP D 0 env.p.K ℝ) st st'
      have hr : NS.solve (reordered env costs' ineq' fip fns).NE (⟨qp'.G, qp'.c, qp'.A, qp'.b, Fin.elim0⟩ :
        QP D 0 (reordered env costs' ineq' fip fns).p.K ℝ) st' = NS.solve env.NE (⟨qp.G, qp.c, qp.A, qp.b, Fin.elim0⟩ :
        QP D 0 env.p.K ℝ) st' := congrArg (fun p => NS.solve env.NE p st') hp
      rcases hf with ⟨w, e1⟩ | ⟨e1, e2⟩ | ⟨y, e1, e2⟩
      · rw [e1] at h; cases h
      · rw [e1] at h
        rw [hr, e2]
        dsimp only at h ⊢
        simp only [Except.ok.injEq, Prod.mk.injEq] at h
        obtain ⟨rfl, rfl⟩ := h
        exact ⟨_, rfl, rfl, rfl, rfl, hq, trivial⟩
      · rw [e1] at h
        rw [hr, e2]
        dsimp only at h ⊢
        simp only [Except.ok.injEq, Prod.mk.injEq] at h
        obtain ⟨rfl, rfl⟩ := h
        exact ⟨_, rfl, rfl, rfl, rfl, hq, trivial⟩

/-- Objects in corresponding states; the candidate and the solver's own buffers are not observable. -/
structure ORel (e : Fin ineq'.length ≃ Fin env.p.M) (o : env.Obj) (o' : (reordered env costs' ineq' fip fns).Obj) :
    Prop where
  vars : o'.vars = o.vars
  state : o'.state = o.state
  dx : o'.dx = o.dx
  qp : QRel e o.qp o'.qp
  kind : SameKind2 o.solver o'.solver

theorem costDerivative_reordered {e : Fin ineq'.length ≃ Fin env.p.M} {q : QPData D env.p.M env.p.K ℝ}
    {q' : QPData D ineq'.length env.p.K ℝ} (h : QRel e q q') (dx : Fin D → ℝ) :
    costDerivative q' dx = costDerivative q dx := by
  unfold costDerivative
  rw [h.c, h.A, h.b]

theorem raisePenalty_reordered {e : Fin ineq'.length ≃ Fin env.p.M} {q : QPData D env.p.M env.p.K ℝ}
    {q' : QPData D ineq'.length env.p.K ℝ} (h : QRel e q q') (prm : NLSParams ℝ) (dx : Fin D → ℝ) (out : QPResult ℝ)
    (pen : ℝ) :
    raisePenalty (reordered env costs' ineq' fip fns).p prm q' dx out pen = raisePenalty env.p prm q dx out pen := by
  have hs : selectPenalty q' dx (multipliers out) prm.equalityPenaltyRho =
      selectPenalty q dx (multipliers out) prm.equalityPenaltyRho := by
    unfold selectPenalty
    rw [h.c, h.b, h.G]
  unfold raisePenalty
  simp only [reordered, hs]

theorem selectStepSize_reordered (hc : env.p.costs.Perm costs') {e : Fin ineq'.length ≃ Fin env.p.M}
    {o : env.Obj} {o' : (reordered env costs' ineq' fip fns).Obj} (hr : ORel e o o') {prm : NLSParams ℝ} {pre : Errors ℝ}
    {d : DirectionalDerivatives ℝ} {pen : ℝ} {o2 : env.Obj} {res : StepResult}
    (h : selectStepSize env prm pre d pen o = .ok (o2, res)) :
    ∃ o2' : (reordered env costs' ineq' fip fns).Obj,
      selectStepSize (reordered env costs' ineq' fip fns) prm pre d pen o' = .ok (o2', res) ∧ ORel e o2 o2' ∧
      o2'.steps = o2.steps ∧ (res = .success → o2'.cand = o2.cand) := by
  obtain ⟨hp, hpre, hl, ho⟩ := selectStepSize_ok h
  obtain ⟨c, hl', hcand⟩ := lsLoop_reordered (ineq' := ineq') (fip := fip) (fns := fns) hc prm o.vars o.dx pre d pen _ _ _ _ _
    o'.cand _ hl
  rw [← hr.vars, ← hr.dx] at hl'
  refine ⟨{ o' with steps := o2.steps, cand := c }, ?_, ⟨?_, ?_, ?_, ?_, ?_⟩, rfl, hcand⟩
  · unfold selectStepSize
    rw [if_neg (not_not.mpr hp), if_neg hpre, hl']
  all_goals rw [ho]
  · exact hr.vars
  · exact hr.state
  · exact hr.dx
  · exact hr.qp
  · exact hr.kind

theorem updateLambda_reordered {e : Fin ineq'.length ≃ Fin env.p.M}
    {o : env.Obj} {o' : (reordered env costs' ineq' fip fns).Obj} (hr : ORel e o o') {prm : NLSParams ℝ} {pre : Errors ℝ}
    {pen lam lam1 : ℝ} {o3 : env.Obj} {res : StepResult} {ex : Option NLSTermination}
    (hs : o'.steps = o.steps) (hcand : res = .success → o'.cand = o.cand)
    (h : updateLambda env prm res pre pen lam o = .ok (o3, lam1, ex)) :
    ∃ o3' : (reordered env costs' ineq' fip fns).Obj,
      updateLambda (reordered env costs' ineq' fip fns) prm res pre pen lam o' = .ok (o3', lam1, ex) ∧ ORel e o3 o3' ∧
      o3'.steps = o3.steps := by
  obtain ⟨qp, sol, vars, cand, dx, steps, state⟩ := o
  obtain ⟨qp', sol', vars', cand', dx', steps', state'⟩ := o'
  obtain ⟨hv, hst, hd, hq, hk⟩ := hr
  dsimp only at hv hst hd hq hk hs hcand
  subst hv hst hd hs
  unfold updateLambda at h ⊢
  dsimp only at h ⊢
  cases res with
  | success =>
    have hcc := hcand rfl
    subst hcc
    dsimp only at h ⊢
    cases hf : steps'.getLast? with
    | none => rw [hf] at h; cases h
    | some f =>
      rw [hf] at h
      dsimp only at h ⊢
      cases h
      exact ⟨_, rfl, ⟨rfl, rfl, rfl, hq, hk⟩, rfl⟩
  | firstOrderSatisfied => cases h; exact ⟨_, rfl, ⟨rfl, rfl, rfl, hq, hk⟩, rfl⟩
  | maxIterations => cases h; exact ⟨_, rfl, ⟨rfl, rfl, rfl, hq, hk⟩, rfl⟩
  | positiveDerivative => cases h; exact ⟨_, rfl, ⟨rfl, rfl, rfl, hq, hk⟩, rfl⟩
  | failureNonFiniteCost => cases h; exact ⟨_, rfl, ⟨rfl, rfl, rfl, hq, hk⟩, rfl⟩
  | failureInvalidAlpha => cases h; exact ⟨_, rfl, ⟨rfl, rfl, rfl, hq, hk⟩, rfl⟩

/-- Loop states in correspondence. The QP of the previous pass is overwritten before it is read. -/
structure LRel (s : Loop env) (s' : Loop (reordered env costs' ineq' fip fns)) : Prop where
  vars : s'.obj.vars = s.obj.vars
  state : s'.obj.state = s.obj.state
  kind : SameKind2 s.obj.solver s'.obj.solver
  lambda : s'.lambda = s.lambda
  penalty : s'.penalty = s.penalty
  log : s'.log = s.log
  calls : s'.calls = s.calls

/-- The bounds can all be met at once. -/
def Consistent (ineq : List (Ineq ℝ)) : Prop := ∃ w : Int → ℝ, ∀ c ∈ ineq, 0 ≤ c.a * w c.var + c.b

theorem body_reordered (hc : env.p.costs.Perm costs') (e : Fin ineq'.length ≃ Fin env.p.M)
    (he : ∀ i, ineq'.get i = env.p.ineq.get (e i)) (hbox : Consistent env.p.ineq) {prm : NLSParams ℝ} {iter : Nat}
    {s s1 : Loop env} {s' : Loop (reordered env costs' ineq' fip fns)} (hr : LRel s s') {t : Option NLSTermination}
    (h : body env prm iter s = .ok (s1, t)) :
    ∃ s1', body (reordered env costs' ineq' fip fns) prm iter s' = .ok (s1', t) ∧ LRel s1 s1' := by
  cases h1 : linearize env.p s.obj.vars s.lambda s.obj.qp with
  | error w => unfold body at h; rw [h1] at h; cases h
  | ok q =>
  obtain ⟨qp, pre⟩ := q
  obtain ⟨qp', h1', hq, hin, hcon⟩ := linearize_reordered (fip := fip) (fns := fns) hc e he _ _ _ s'.obj.qp _ _ h1
  rw [← hr.vars, ← hr.lambda] at h1'
  have hfeas : ∃ w : Fin D → ℝ, ∀ m (hm : 0 ≤ (qp.con m).var ∧ (qp.con m).var < (D : Int)),
      0 ≤ (qp.con m).a * w ⟨(qp.con m).var.toNat, by omega⟩ + (qp.con m).b := by
    obtain ⟨w, hw⟩ := hbox
    refine ⟨fun i => w i - if hi : i.1 < n then s.obj.vars ⟨i.1, hi⟩ else 0, fun m hm => ?_⟩
    have hb := hw _ (List.get_mem env.p.ineq m)
    have hi := hin _ (List.get_mem env.p.ineq m)
    simp only [hcon m] at hm ⊢
    have hlt : (env.p.ineq.get m).var.toNat < n := by omega
    rw [dif_pos hlt]
    have hv : (((env.p.ineq.get m).var.toNat : Nat) : Int) = (env.p.ineq.get m).var := by omega
    have hbd : boundAt (env.p.ineq.get m) s.obj.vars =
        (env.p.ineq.get m).a * s.obj.vars ⟨(env.p.ineq.get m).var.toNat, hlt⟩ + (env.p.ineq.get m).b := by
      unfold boundAt
      exact dif_pos hi
    rw [hv]
    refine le_of_le_of_eq hb ?_
    have : (env.p.ineq.get m).a * (w (env.p.ineq.get m).var - s.obj.vars ⟨(env.p.ineq.get m).var.toNat, hlt⟩)
        + boundAt (env.p.ineq.get m) s.obj.vars = (env.p.ineq.get m).a * w (env.p.ineq.get m).var + (env.p.ineq.get m).b := by
      rw [hbd]; ring
    exact this.symm
  cases h2 : stepDirection env prm ({ s.obj with qp := qp } : env.Obj) with
  | error w => unfold body at h; rw [h1] at h; simp only at h; rw [h2] at h; cases h
  | ok q =>
  obtain ⟨o1, out⟩ := q
  obtain ⟨o1', h2', hdx, hv1, hs1, hq1, hk1⟩ := stepDirection_reordered prm e
    (o := { s.obj with qp := qp }) (o' := { s'.obj with qp := qp' }) hr.kind hr.vars hr.state hq hfeas h2
  have hor : ORel e o1 o1' := ⟨hv1, hs1, hdx, hq1, hk1⟩
  by_cases hind : wasIndefinite out = true
  · have hb : body env prm iter s = .ok ({ s with obj := o1 }, some .qpIndefinite) := by
      unfold body; rw [h1]; simp only; rw [h2]; simp only; rw [if_pos hind]
    have hb' : body (reordered env costs' ineq' fip fns) prm iter s' = .ok ({ s' with obj := o1' }, some .qpIndefinite) := by
      unfold body; rw [h1']; simp only; rw [h2']; simp only; rw [if_pos hind]
    rw [hb] at h
    cases h
    exact ⟨_, hb', hv1, hs1, hk1, hr.lambda, hr.penalty, hr.log, hr.calls⟩
  cases h3 : selectStepSize env prm pre (costDerivative o1.qp o1.dx)
      (raisePenalty env.p prm o1.qp o1.dx out s.penalty) o1 with
  | error w => unfold body at h; rw [h1] at h; simp only at h; rw [h2] at h; simp only at h; rw [if_neg hind, h3] at h; cases h
  | ok q =>
  obtain ⟨o2, res⟩ := q
  obtain ⟨o2', h3', ho2, hst2, hc2⟩ := selectStepSize_reordered hc hor h3
  cases h4 : updateLambda env prm res pre (raisePenalty env.p prm o1.qp o1.dx out s.penalty) s.lambda o2 with
  | error w =>
    unfold body at h; rw [h1] at h; simp only at h; rw [h2] at h; simp only at h; rw [if_neg hind, h3] at h
    simp only at h; rw [h4] at h; cases h
  | ok q =>
  obtain ⟨o3, lam, ex⟩ := q
  obtain ⟨o3', h4', ho3, hst3⟩ := updateLambda_reordered ho2 hst2 hc2 h4
  have hcd : costDerivative o1'.qp o1'.dx = costDerivative o1.qp o1.dx := by
    rw [hor.dx]; exact costDerivative_reordered hor.qp _
  have hrp : raisePenalty (reordered env costs' ineq' fip fns).p prm o1'.qp o1'.dx out s'.penalty =
      raisePenalty env.p prm o1.qp o1.dx out s.penalty := by
    rw [hor.dx, hr.penalty]; exact raisePenalty_reordered hor.qp prm _ _ _
  rw [← hcd, ← hrp] at h3'
  rw [← hrp, ← hr.lambda] at h4'
  have hb := body_eq (iter := iter) h1 h2 hind h3 h4
  have hb' := body_eq (env := reordered env costs' ineq' fip fns) (s := s') (iter := iter) h1' h2' hind h3' h4'
  have hen : entry (reordered env costs' ineq' fip fns) prm iter s'.lambda s'.penalty pre out o1' o3' res =
      entry env prm iter s.lambda s.penalty pre out o1 o3 res := by
    unfold entry
    rw [hrp, hcd, ho3.state, hr.lambda, hst3, show o3'.qp.G = o3.qp.G from ho3.qp.G]
    rfl
  rw [hen, hrp, hr.calls, hr.log] at hb'
  rw [hb] at h
  have hcf : callbackFails (reordered env costs' ineq' fip fns) (entry env prm iter s.lambda s.penalty pre out o1 o3 res)
    s.calls = callbackFails env (entry env prm iter s.lambda s.penalty pre out o1 o3 res) s.calls := rfl
  rw [hcf] at hb'
  split_ifs at h with hf
  rw [if_neg hf] at hb'
  simp only [Except.ok.injEq, Prod.mk.injEq] at h
  obtain ⟨rfl, rfl⟩ := h
  exact ⟨_, hb', ho3.vars, ho3.state, ho3.kind, rfl, rfl, rfl, rfl⟩

theorem loop_reordered (hc : env.p.costs.Perm costs') (e : Fin ineq'.length ≃ Fin env.p.M)
    (he : ∀ i, ineq'.get i = env.p.ineq.get (e i)) (hbox : Consistent env.p.ineq) {prm : NLSParams ℝ} :
    ∀ (fuel iter : Nat) {s s1 : Loop env} {s' : Loop (reordered env costs' ineq' fip fns)} (_ : LRel s s')
    {t : NLSTermination} (_ : loop env prm fuel iter s = .ok (s1, t)),
    ∃ s1', loop (reordered env costs' ineq' fip fns) prm fuel iter s' = .ok (s1', t) ∧ LRel s1 s1' := by
  intro fuel
  induction fuel with
  | zero =>
    intro iter s s1 s' hr t h
    simp only [loop, Except.ok.injEq, Prod.mk.injEq] at h
    obtain ⟨rfl, rfl⟩ := h
    exact ⟨s', rfl, hr⟩
  | succ fuel ih =>
    intro iter s s1 s' hr t h
    simp only [loop] at h ⊢
    cases hb : body env prm iter s with
    | error w => rw [hb] at h; cases h
    | ok q =>
      obtain ⟨s2, t2⟩ := q
      obtain ⟨s2', hb', hr2⟩ := body_reordered hc e he hbox hr hb
      rw [hb] at h
      rw [hb']
      cases t2 with
      | some t2 =>
        simp only [Except.ok.injEq, Prod.mk.injEq] at h
        obtain ⟨rfl, rfl⟩ := h
        exact ⟨s2', rfl, hr2⟩
      | none => exact ih _ hr2 h

end sim

/-- C83: a run of `Solve` that returns, returns the same thing - the whole output with its log, the sequence of values
shown to the callback, and the final variables - whatever the order in which costs and bounds are listed, and
whatever the two objects contained before. -/
theorem C83_order (env : Env n D ℝ) (costs' : List (Residual ℝ)) (ineq' : List (Ineq ℝ))
    (hc : env.p.costs.Perm costs') (hi : env.p.ineq.Perm ineq') (hbox : Consistent env.p.ineq)
    (fip : IPState D ineq'.length env.p.K ℝ) (fns : NSState D ℝ) (prm : NLSParams ℝ) (x0 : Fin n → ℝ)
    (o o1 : env.Obj) (o' : (reordered env costs' ineq' fip fns).Obj) (out : NLSOutputs ℝ) (calls : List (NLSIteration ℝ))
    (h : solve env prm x0 o = .ok (o1, out, calls)) :
    ∃ o1', solve (reordered env costs' ineq' fip fns) prm x0 o' = .ok (o1', out, calls) ∧ o1'.vars = o1.vars := by
  obtain ⟨e, he⟩ := perm_equiv hi
  unfold solve at h ⊢
  cases hp : NLS.checkParams prm with
  | error w => rw [hp] at h; cases h
  | ok u =>
    rw [hp] at h
    simp only at h ⊢
    have hk : SameKind2 (chooseSolver env o.solver) (chooseSolver (reordered env costs' ineq' fip fns) o'.solver) := by
      unfold chooseSolver
      have hn : ((reordered env costs' ineq' fip fns).p.ineq = [] ∧ (reordered env costs' ineq' fip fns).p.eqs ≠ []) ↔
          (env.p.ineq = [] ∧ env.p.eqs ≠ []) := by
        show (ineq' = [] ∧ env.p.eqs ≠ []) ↔ _
        rw [← List.length_eq_zero_iff, ← List.length_eq_zero_iff, hi.length_eq]
      by_cases hcond : env.p.ineq = [] ∧ env.p.eqs ≠ []
      · rw [if_pos hcond, if_pos (hn.mpr hcond)]
        cases o.solver <;> cases o'.solver <;> trivial
      · rw [if_neg hcond, if_neg (fun h => hcond (hn.mp h))]
        cases o.solver <;> cases o'.solver <;> trivial
    cases hl : loop env prm prm.maxIterations.toNat 0 (start env prm x0 o) with
    | error w => rw [hl] at h; cases h
    | ok q =>
      obtain ⟨s, t⟩ := q
      rw [hl] at h
      simp only [Except.ok.injEq, Prod.mk.injEq] at h
      obtain ⟨rfl, rfl, rfl⟩ := h
      obtain ⟨s', hl', hr⟩ := loop_reordered (fip := fip) (fns := fns) hc e he hbox _ _
        (s' := start (reordered env costs' ineq' fip fns) prm x0 o') ⟨rfl, rfl, hk, rfl, rfl, rfl, rfl⟩ hl
      rw [hl']
      exact ⟨s'.obj, by simp only [hr.log, hr.calls], hr.vars⟩

/-- C83, both ways: one order returns if and only if the other does. -/
theorem C83_order_iff (env : Env n D ℝ) (costs' : List (Residual ℝ)) (ineq' : List (Ineq ℝ))
    (hc : env.p.costs.Perm costs') (hi : env.p.ineq.Perm ineq') (hbox : Consistent env.p.ineq)
    (fip : IPState D ineq'.length env.p.K ℝ) (fns : NSState D ℝ) (prm : NLSParams ℝ) (x0 : Fin n → ℝ)
    (o : env.Obj) (o' : (reordered env costs' ineq' fip fns).Obj) (out : NLSOutputs ℝ) (calls : List (NLSIteration ℝ))
    (xf : Fin n → ℝ) :
    (∃ o1, solve env prm x0 o = .ok (o1, out, calls) ∧ o1.vars = xf) ↔
    (∃ o1, solve (reordered env costs' ineq' fip fns) prm x0 o' = .ok (o1, out, calls) ∧ o1.vars = xf) := by
  constructor
  · rintro ⟨o1, h, rfl⟩
    exact C83_order env costs' ineq' hc hi hbox fip fns prm x0 o o1 o' out calls h
  · rintro ⟨o1, h, rfl⟩
    have hbox' : Consistent (reordered env costs' ineq' fip fns).p.ineq := by
      obtain ⟨w, hw⟩ := hbox
      exact ⟨w, fun c hm => hw c (hi.mem_iff.mpr hm)⟩
    exact C83_order (reordered env costs' ineq' fip fns) env.p.costs env.p.ineq hc.symm hi.symm hbox' env.freshIP
      env.freshNS prm x0 o' o1 o out calls h

/-- The hypotheses are met, and the orders differ: two costs, a lower bound on the first variable and an upper bound on
the second, both lists reversed; the run makes at least one pass. -/
example : ∃ (o' : (reordered DemoReal.boundedEnv [DemoReal.cost2, DemoReal.cost1] [⟨1, -1, 4⟩, ⟨0, 1, -1 / 2⟩]
      (DemoReal.blank 2 0) ⟨fun _ => 0⟩).Obj) (out : NLSOutputs ℝ) (calls : List (NLSIteration ℝ)),
    out.iterations ≠ [] ∧
    (∃ o1, solve DemoReal.boundedEnv (NLSParams.default : NLSParams ℝ) ![1, 1] (DemoReal.mkObj _) = .ok (o1, out, calls)) ∧
    ∃ o1, solve (reordered DemoReal.boundedEnv [DemoReal.cost2, DemoReal.cost1] [⟨1, -1, 4⟩, ⟨0, 1, -1 / 2⟩]
      (DemoReal.blank 2 0) ⟨fun _ => 0⟩) (NLSParams.default : NLSParams ℝ) ![1, 1] o' = .ok (o1, out, calls) := by
  obtain ⟨o1, out, calls, h, hne⟩ := DemoReal.bounded_run (NLSParams.default : NLSParams ℝ) DemoReal.nls_default_valid
    (by norm_num [NLSParams.default]) (by norm_num [NLSParams.default]) ![1, 1]
  let o' : (reordered DemoReal.boundedEnv [DemoReal.cost2, DemoReal.cost1] [⟨1, -1, 4⟩, ⟨0, 1, -1 / 2⟩]
      (DemoReal.blank 2 0) ⟨fun _ => 0⟩).Obj :=
    ⟨⟨fun _ _ => 7, fun _ => 0, fun _ _ => 0, fun _ => 0, fun _ => ⟨0, 0, 0⟩⟩, .ns ⟨fun _ => 3⟩, fun _ => 5, fun _ => 0,
      fun _ => 0, [], .attemptingRestoreLM⟩
  obtain ⟨o1', h', -⟩ := C83_order DemoReal.boundedEnv [DemoReal.cost2, DemoReal.cost1] [⟨1, -1, 4⟩, ⟨0, 1, -1 / 2⟩]
    (List.Perm.swap _ _ _) (List.Perm.swap _ _ _) ⟨fun _ => 1, by
      intro c hc
      have hc' : c ∈ [(⟨0, 1, -1 / 2⟩ : Ineq ℝ), ⟨1, -1, 4⟩] := hc
      rcases List.mem_cons.mp hc' with rfl | hc'
      · norm_num
      · rcases List.mem_singleton.mp hc' with rfl; norm_num⟩ (DemoReal.blank 2 0) ⟨fun _ => 0⟩ _ _ _ _ o' _ _ h
  exact ⟨o', out, calls, hne, ⟨o1, h⟩, o1', h'⟩

end MiniOpt.Props
