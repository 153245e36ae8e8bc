import Verif.Lemmas.NLSLoop
import Verif.Spec.NLSSpec
import Verif.Props.Residual

/-!
# The trajectory of a solve, tied to observable facts (any arithmetic)
-/

set_option autoImplicit false

namespace MiniOpt.NLS

open MiniOpt.Spec MiniOpt.Props

variable {α : Type} [Scalar α] {n D : Nat}

theorem loop_forward {env : Env n D α} {prm : NLSParams α} : ∀ (k : Nat) (iter : Nat) (S : Nat → Loop env)
    (T : Nat → Option NLSTermination),
    (∀ j, j < k → body env prm (iter + j) (S j) = .ok (S (j + 1), T j)) → (∀ j, j + 1 < k → T j = none) →
    ∃ t, loop env prm k iter (S 0) = .ok (S k, t) := by
  intro k
  induction k with
  | zero => intro iter S T _ _; exact ⟨_, rfl⟩
  | succ k ih =>
    intro iter S T hb hT
    have h0 := hb 0 (by omega)
    simp only [Nat.add_zero, Nat.zero_add] at h0
    simp only [loop]
    rw [h0]
    cases k with
    | zero =>
      cases hT0 : T 0 with
      | none => exact ⟨.maxIterations, rfl⟩
      | some t => exact ⟨t, rfl⟩
    | succ k =>
      rw [hT 0 (by omega)]
      refine ih (iter + 1) (fun j => S (j + 1)) (fun j => T (j + 1)) ?_ ?_
      · intro j hj
        have := hb (j + 1) (by omega)
        rwa [show iter + (j + 1) = iter + 1 + j by omega] at this
      · intro j hj; exact hT (j + 1) (by omega)

theorem checkParams_iff (prm : NLSParams α) : checkParams prm = .ok () ↔ NLSParamsValid prm := by
  unfold checkParams
  constructor
  · intro h
    by_cases h1 : 0 ≤ prm.maxIterations <;> simp only [h1, not_true_eq_false, if_false, not_false_eq_true, if_true, reduceCtorEq] at h
    by_cases h2 : 1 ≤ prm.maxQPIterations <;> simp only [h2, not_true_eq_false, if_false, not_false_eq_true, if_true, reduceCtorEq] at h
    by_cases h3 : 0 < prm.terminationKktTol <;> simp only [h3, not_true_eq_false, if_false, not_false_eq_true, if_true, reduceCtorEq] at h
    by_cases h4 : 0 < prm.absoluteExitTol <;> simp only [h4, not_true_eq_false, if_false, not_false_eq_true, if_true, reduceCtorEq] at h
    by_cases h5 : 0 ≤ prm.maxLineSearchIterations <;> simp only [h5, not_true_eq_false, if_false, not_false_eq_true, if_true, reduceCtorEq] at h
    by_cases h6 : 0 ≤ prm.relativeExitTol <;> simp only [h6, not_true_eq_false, if_false, not_false_eq_true, if_true, reduceCtorEq] at h
    by_cases h7 : prm.relativeExitTol ≤ 1 <;> simp only [h7, not_true_eq_false, if_false, not_false_eq_true, if_true, reduceCtorEq] at h
    by_cases h8 : 0 ≤ prm.absoluteFirstDerivativeTol <;> simp only [h8, not_true_eq_false, if_false, not_false_eq_true, if_true, reduceCtorEq] at h
    by_cases h9 : 0 < prm.armijoSearchTau <;> simp only [h9, not_true_eq_false, if_false, not_false_eq_true, if_true, reduceCtorEq] at h
    by_cases h10 : prm.armijoSearchTau < 1 <;> simp only [h10, not_true_eq_false, if_false, not_false_eq_true, if_true, reduceCtorEq] at h
    by_cases h11 : 0 ≤ prm.equalityPenaltyInitial <;> simp only [h11, not_true_eq_false, if_false, not_false_eq_true, if_true, reduceCtorEq] at h
    by_cases h12 : 1 ≤ prm.equalityPenaltyScaleFactor <;> simp only [h12, not_true_eq_false, if_false, not_false_eq_true, if_true, reduceCtorEq] at h
    by_cases h13 : 0 ≤ prm.equalityPenaltyRho <;> simp only [h13, not_true_eq_false, if_false, not_false_eq_true, if_true, reduceCtorEq] at h
    by_cases h14 : prm.equalityPenaltyRho < 1 <;> simp only [h14, not_true_eq_false, if_false, not_false_eq_true, if_true, reduceCtorEq] at h
    by_cases h15 : 0 ≤ prm.maxLambda <;> simp only [h15, not_true_eq_false, if_false, not_false_eq_true, if_true, reduceCtorEq] at h
    by_cases h16 : prm.minLambda ≤ prm.maxLambda <;> simp only [h16, not_true_eq_false, if_false, not_false_eq_true, if_true, reduceCtorEq] at h
    by_cases h17 : prm.minLambda ≤ prm.lambdaInitial <;> simp only [h17, not_true_eq_false, if_false, not_false_eq_true, if_true, reduceCtorEq] at h
    by_cases h18 : prm.lambdaInitial ≤ prm.maxLambda <;> simp only [h18, not_true_eq_false, if_false, not_false_eq_true, if_true, reduceCtorEq] at h
    by_cases h19 : 0 ≤ prm.lambdaFailureInit <;> simp only [h19, not_true_eq_false, if_false, not_false_eq_true, if_true, reduceCtorEq] at h
    by_cases h20 : 0 ≤ prm.lambdaDecreaseOnSuccess <;> simp only [h20, not_true_eq_false, if_false, not_false_eq_true, if_true, reduceCtorEq] at h
    by_cases h21 : prm.lambdaDecreaseOnSuccess < 1 <;> simp only [h21, not_true_eq_false, if_false, not_false_eq_true, if_true, reduceCtorEq] at h
    by_cases h22 : 0 ≤ prm.lambdaDecreaseOnRestore <;> simp only [h22, not_true_eq_false, if_false, not_false_eq_true, if_true, reduceCtorEq] at h
    by_cases h23 : prm.lambdaDecreaseOnRestore < 1 <;> simp only [h23, not_true_eq_false, if_false, not_false_eq_true, if_true, reduceCtorEq] at h
    exact ⟨h1, h2, h3, h4, h5, ⟨h6, h7⟩, h8, ⟨h9, h10⟩, h11, h12, ⟨h13, h14⟩, h15, h16, ⟨h17, h18⟩, h19, ⟨h20, h21⟩,
      ⟨h22, h23⟩⟩
  · rintro ⟨h1, h2, h3, h4, h5, ⟨h6, h7⟩, h8, ⟨h9, h10⟩, h11, h12, ⟨h13, h14⟩, h15, h16, ⟨h17, h18⟩, h19,
      ⟨h20, h21⟩, ⟨h22, h23⟩⟩
    simp only [h1, h2, h3, h4, h5, h6, h7, h8, h9, h10, h11, h12, h13, h14, h15, h16, h17, h18, h19, h20, h21, h22, h23,
      not_true_eq_false, if_false]

theorem checkParams_cap {prm : NLSParams α} (h : checkParams prm = .ok ()) (k : Nat) :
    checkParams { prm with maxIterations := (k : Int) } = .ok () := by
  have h0 : (0 : Int) ≤ k := by omega
  unfold checkParams at h ⊢
  by_cases hm : 0 ≤ prm.maxIterations
  · rw [if_neg (not_not.mpr hm)] at h
    dsimp only
    rw [if_neg (not_not.mpr h0)]
    exact h
  · rw [if_pos hm] at h; cases h

theorem lsLoop_cap (env : Env n D α) (prm : NLSParams α) (m : Int) (x : Fin n → α) (dx : Fin D → α)
    (pre : Errors α) (d : DirectionalDerivatives α) (pen : α) : ∀ (fuel iter : Nat) (a : α)
    (steps : List (LineSearchStep α)) (cand : Fin n → α),
    lsLoop env { prm with maxIterations := m } x dx pre d pen fuel iter a steps cand
      = lsLoop env prm x dx pre d pen fuel iter a steps cand := by
  intro fuel
  induction fuel with
  | zero => intros; rfl
  | succ fuel ih => intros; simp only [lsLoop, ih]

theorem body_cap (env : Env n D α) (prm : NLSParams α) (m : Int) (iter : Nat) (s : Loop env) :
    body env { prm with maxIterations := m } iter s = body env prm iter s := by
  unfold body selectStepSize
  simp only [lsLoop_cap]
  rfl

theorem loop_cap (env : Env n D α) (prm : NLSParams α) (m : Int) : ∀ (fuel iter : Nat) (s : Loop env),
    loop env { prm with maxIterations := m } fuel iter s = loop env prm fuel iter s := by
  intro fuel
  induction fuel with
  | zero => intros; rfl
  | succ fuel ih => intros; simp only [loop, ih, body_cap]

/-- Everything a returned solve did: loop states `S`, one logged pass per log entry. -/
structure View (env : Env n D α) (prm : NLSParams α) (x0 : Fin n → α) (o o' : env.Obj) (out : NLSOutputs α)
    (calls : List (NLSIteration α)) (S : Nat → Loop env) (T : Nat → Option NLSTermination)
    (W : Nat → PassData env) : Prop where
  prmOk : NLSParamsValid prm
  start : S 0 = start env prm x0 o
  pass : ∀ k, k < out.iterations.length → Pass env prm k (S k) (S (k + 1)) (T k) (W k)
  step : ∀ k, k < out.iterations.length → body env prm k (S k) = .ok (S (k + 1), T k)
  log : ∀ k, k < out.iterations.length → out.iterations[k]? = some (W k).info
  slog : ∀ k, k ≤ out.iterations.length → (S k).log = out.iterations.take k
  after : ∀ k, k ≤ out.iterations.length → ∀ ob, After env prm x0 o k ob ↔ ob = (S k).obj
  upto : ∀ k, k ≤ out.iterations.length → ∃ t, solve env { prm with maxIterations := (k : Int) } x0 o =
    .ok ((S k).obj, ⟨t, out.iterations.take k⟩, (S k).calls)
  vars : o'.vars = (S out.iterations.length).obj.vars
  state : o'.state = (S out.iterations.length).obj.state
  calls : calls = (S out.iterations.length).calls
  cont : ∀ k, k + 1 < out.iterations.length → T k = none
  le : (out.iterations.length : Int) ≤ prm.maxIterations
  stop : (out.termination = .maxIterations ∧ (out.iterations.length : Int) = prm.maxIterations ∧
      (∀ k, k < out.iterations.length → T k = none) ∧ o' = (S out.iterations.length).obj) ∨
    (out.termination ≠ .qpIndefinite ∧ 0 < out.iterations.length ∧
      T (out.iterations.length - 1) = some out.termination ∧ o' = (S out.iterations.length).obj) ∨
    (out.termination = .qpIndefinite ∧ (out.iterations.length : Int) < prm.maxIterations ∧
      (∀ k, k < out.iterations.length → T k = none) ∧
      ∃ qp pre o1 res, linearize env.p (S out.iterations.length).obj.vars (S out.iterations.length).lambda
          (S out.iterations.length).obj.qp = .ok (qp, pre) ∧
        stepDirection env prm { (S out.iterations.length).obj with qp := qp } = .ok (o1, res) ∧
        wasIndefinite res = true ∧ o' = o1)

theorem solve_view {env : Env n D α} {prm : NLSParams α} {x0 : Fin n → α} {o o' : env.Obj}
    {out : NLSOutputs α} {calls : List (NLSIteration α)} (h : solve env prm x0 o = .ok (o', out, calls)) :
    ∃ (S : Nat → Loop env) (T : Nat → Option NLSTermination) (W : Nat → PassData env),
      View env prm x0 o o' out calls S T W := by
  obtain ⟨hc, len, S, T, sEnd, ht, ho, hl, hcl⟩ := solve_traj h
  obtain ⟨W, hW, hSl, hEl⟩ := ht.log_eq rfl
  have hlen : out.iterations.length = logged len out.termination := by
    rw [← hl, hEl]; simp
  have hm0 : 0 ≤ prm.maxIterations := ((checkParams_iff prm).mp hc).maxIterations
  have hle := ht.le
  have hlog : out.iterations = (List.range out.iterations.length).map fun j => (W j).info := by
    rw [hlen, ← hEl, hl]
  have hupto : ∀ k, k ≤ out.iterations.length → ∃ t, solve env { prm with maxIterations := (k : Int) } x0 o =
      .ok ((S k).obj, ⟨t, out.iterations.take k⟩, (S k).calls) := by
    intro k hk
    have hlk : k ≤ len := le_trans hk (hlen ▸ ht.logged_le)
    obtain ⟨t, hf⟩ := loop_forward (env := env) (prm := prm) k 0 S T
      (fun j hj => by rw [Nat.zero_add]; exact ht.step j (by omega))
      (fun j hj => ht.cont j (by omega))
    have hlk' : (S k).log = out.iterations.take k := by
      rw [hSl k (by omega), hlog, ← List.map_take, List.take_range, min_eq_left hk]
    refine ⟨t, ?_⟩
    have hstart : S 0 = NLS.start env { prm with maxIterations := (k : Int) } x0 o := ht.start
    have hloop : loop env { prm with maxIterations := (k : Int) } k 0 (S 0) = .ok (S k, t) := by
      rw [loop_cap]; exact hf
    unfold solve
    rw [checkParams_cap hc k]
    dsimp only
    rw [Int.toNat_natCast, ← hstart, hloop, ← hlk']
  refine ⟨S, T, W, ?_⟩
  constructor
  case prmOk => exact (checkParams_iff prm).mp hc
  case start => exact ht.start
  case pass => intro k hk; exact hW k (by omega)
  case step =>
    intro k hk
    exact ht.step k (by have := ht.logged_le; omega)
  case log =>
    intro k hk
    rw [hlog]
    simp [hk]
  case slog =>
    intro k hk
    rw [hSl k (by omega), hlog, ← List.map_take, List.take_range, min_eq_left hk]
  case after =>
    intro k hk ob
    obtain ⟨t, hpre⟩ := hupto k hk
    constructor
    · rintro ⟨out', calls', hs, _⟩
      rw [hpre] at hs
      cases hs; rfl
    · rintro rfl
      exact ⟨_, _, hpre, by simp [hk]⟩
  case upto => exact hupto
  case vars =>
    by_cases hq : out.termination = .qpIndefinite
    · rw [hq] at ht
      obtain ⟨hpos, qp, pre, o1, res, _, hd, _, hs⟩ := ht.indefinite
      have hl' : out.iterations.length = len - 1 := by rw [hlen, hq]; simp [logged]
      rw [← ho, hl', hs]
      have e := congrArg Obj.vars (stepDirection_frame hd); exact e
    · have hl' : out.iterations.length = len := by rw [hlen]; simp [logged, hq]
      rw [← ho, hl', ht.last]
  case state =>
    by_cases hq : out.termination = .qpIndefinite
    · rw [hq] at ht
      obtain ⟨hpos, qp, pre, o1, res, _, hd, _, hs⟩ := ht.indefinite
      have hl' : out.iterations.length = len - 1 := by rw [hlen, hq]; simp [logged]
      rw [← ho, hl', hs]
      have e := congrArg Obj.state (stepDirection_frame hd); exact e
    · have hl' : out.iterations.length = len := by rw [hlen]; simp [logged, hq]
      rw [← ho, hl', ht.last]
  case calls =>
    by_cases hq : out.termination = .qpIndefinite
    · rw [hq] at ht
      obtain ⟨hpos, qp, pre, o1, res, _, hd, _, hs⟩ := ht.indefinite
      have hl' : out.iterations.length = len - 1 := by rw [hlen, hq]; simp [logged]
      rw [← hcl, hl', hs]
    · have hl' : out.iterations.length = len := by rw [hlen]; simp [logged, hq]
      rw [← hcl, hl', ht.last]
  case cont =>
    intro k hk
    refine ht.cont k ?_
    have := ht.logged_le
    omega
  case le =>
    have := ht.logged_le
    omega
  case stop =>
    by_cases hq : out.termination = .qpIndefinite
    · right; right
      have ht' := ht
      rw [hq] at ht'
      obtain ⟨hpos, qp, pre, o1, res, h1, h2, h3, h4⟩ := ht'.indefinite
      have hl' : out.iterations.length = len - 1 := by rw [hlen, hq]; simp [logged]
      refine ⟨hq, by omega, fun k hk => ht.cont k (by omega), qp, pre, o1, res, ?_⟩
      rw [hl']
      exact ⟨h1, h2, h3, by rw [← ho, h4]⟩
    · have hl' : out.iterations.length = len := by rw [hlen]; simp [logged, hq]
      have hobj : o' = (S out.iterations.length).obj := by rw [← ho, hl', ht.last]
      rcases ht.stop with ⟨h1, h2, h3⟩ | ⟨h1, h2⟩
      · left; exact ⟨h2, by omega, fun k hk => h3 k (by omega), hobj⟩
      · right; left
        exact ⟨hq, by omega, by rw [hl']; exact h2, hobj⟩

/-! ## Errors -/

theorem params_eq (r : Residual α) (x : Fin n → α) (h : IdxIn r n) : readParams r h x = params r x := by
  funext l
  unfold readParams params
  rw [dif_pos (h l)]

theorem errorVector_ok_iff (r : Residual α) (x : Fin n → α) (v : Fin r.dim → α) :
    r.errorVector x r.dim = .ok v ↔ (IdxIn r n ∧ Quiet r x) ∧ v = valueAt r x := by
  unfold Residual.errorVector
  rw [if_neg (by simp)]
  by_cases h : IdxIn r n
  · rw [gather_ok r x h, params_eq]
    simp only [h, true_and]
    unfold Quiet
    cases r.throws (params r x)
    · simp only [valueAt, Bool.false_eq_true, if_false, Except.ok.injEq, true_and]
      exact eq_comm
    · simp
  · obtain ⟨t, ht⟩ := gather_error r x h
    rw [ht]
    simp [h]

theorem evalCosts_ok (x : Fin n → α) : ∀ (l : List (Residual α)) (f f' : α), evalCosts x l f = .ok f' ↔
    (∀ r ∈ l, IdxIn r n ∧ Quiet r x) ∧ f' = l.foldl (fun f r => f + Residual.half * squaredNorm (valueAt r x)) f := by
  intro l
  induction l with
  | nil => intro f f'; simp [evalCosts, eq_comm]
  | cons r l ih =>
    intro f f'
    simp only [evalCosts]
    cases he : r.errorVector x r.dim with
    | error e =>
      simp only [reduceCtorEq, false_iff]
      rintro ⟨h, _⟩
      have : r.errorVector x r.dim = .ok (valueAt r x) := (errorVector_ok_iff r x _).mpr ⟨h r (by simp), rfl⟩
      rw [he] at this; cases this
    | ok v =>
      obtain ⟨h1, h2⟩ := (errorVector_ok_iff r x v).mp he
      simp only
      rw [ih, h2]
      simp [h1.1, h1.2]

theorem evalEqs_ok (x : Fin n → α) : ∀ (l : List (Residual α)) (f f' : α), evalEqs x l f = .ok f' ↔
    (∀ r ∈ l, IdxIn r n ∧ Quiet r x) ∧ f' = l.foldl (fun f r => f + lpNorm1 (valueAt r x)) f := by
  intro l
  induction l with
  | nil => intro f f'; simp [evalEqs, eq_comm]
  | cons r l ih =>
    intro f f'
    simp only [evalEqs]
    cases he : r.errorVector x r.dim with
    | error e =>
      simp only [reduceCtorEq, false_iff]
      rintro ⟨h, _⟩
      have : r.errorVector x r.dim = .ok (valueAt r x) := (errorVector_ok_iff r x _).mpr ⟨h r (by simp), rfl⟩
      rw [he] at this; cases this
    | ok v =>
      obtain ⟨h1, h2⟩ := (errorVector_ok_iff r x v).mp he
      simp only
      rw [ih, h2]
      simp [h1.1, h1.2]

/-- `EvaluateNonlinearErrors` computes the errors of the problem, exactly when all indices exist
and no callable throws. -/
theorem evalErrors_ok_iff (p : Problem D α) (x : Fin n → α) (e : Errors α) :
    evalErrors p x = .ok e ↔ (IndicesOk p n ∧ QuietP p x) ∧ e = errorsAt p x := by
  unfold evalErrors
  cases h1 : evalCosts x p.costs 0 with
  | error e1 =>
    simp only [reduceCtorEq, false_iff]
    rintro ⟨h, _⟩
    have := (evalCosts_ok x p.costs 0 _).mpr ⟨fun r hr => ⟨h.1 r (by simp [hr]), h.2 r (by simp [hr])⟩, rfl⟩
    rw [h1] at this; cases this
  | ok f =>
    simp only
    obtain ⟨hc, hf⟩ := (evalCosts_ok x p.costs 0 f).mp h1
    cases h2 : evalEqs x p.eqs 0 with
    | error e2 =>
      simp only [reduceCtorEq, false_iff]
      rintro ⟨h, _⟩
      have := (evalEqs_ok x p.eqs 0 _).mpr ⟨fun r hr => ⟨h.1 r (by simp [hr]), h.2 r (by simp [hr])⟩, rfl⟩
      rw [h2] at this; cases this
    | ok q =>
      obtain ⟨hq, hqv⟩ := (evalEqs_ok x p.eqs 0 q).mp h2
      simp only [Except.ok.injEq]
      constructor
      · rintro rfl
        refine ⟨⟨?_, ?_⟩, by rw [hf, hqv]; rfl⟩
        · intro r hr
          rcases List.mem_append.mp hr with hr | hr
          · exact (hc r hr).1
          · exact (hq r hr).1
        · intro r hr
          rcases List.mem_append.mp hr with hr | hr
          · exact (hc r hr).2
          · exact (hq r hr).2
      · rintro ⟨_, rfl⟩
        rw [hf, hqv]; rfl

theorem updateHessian_value {r : Residual α} (hc : Consistent r) {x : Fin n → α} {H H' : Fin D → Fin D → α}
    {b b' : Fin D → α} {f : α} (h : r.updateHessian x H b = .ok (H', b', f)) :
    IdxIn r n ∧ f = Residual.half * squaredNorm (valueAt r x) := by
  unfold Residual.updateHessian at h
  by_cases hi : IdxIn r n
  · rw [gather_ok r x hi, params_eq] at h
    simp only at h
    split_ifs at h
    split at h
    · cases h
    · cases h
      exact ⟨hi, by rw [hc]; rfl⟩
  · obtain ⟨t, ht⟩ := gather_error r x hi
    rw [ht] at h; cases h

theorem linCosts_value {x : Fin n → α} : ∀ (l : List (Residual α)) (_ : ∀ r ∈ l, Consistent r)
    (G G' : Fin D → Fin D → α) (c c' : Fin D → α) (f f' : α), linCosts x l G c f = .ok (G', c', f') →
    (∀ r ∈ l, IdxIn r n) ∧ f' = l.foldl (fun f r => f + Residual.half * squaredNorm (valueAt r x)) f := by
  intro l
  induction l with
  | nil =>
    intro _ G G' c c' f f' h
    simp only [linCosts] at h
    cases h; simp
  | cons r l ih =>
    intro hc G G' c c' f f' h
    simp only [linCosts] at h
    split at h
    · cases h
    · rename_i G1 c1 e he
      obtain ⟨h1, h2⟩ := updateHessian_value (hc r (by simp)) he
      obtain ⟨h3, h4⟩ := ih (fun r hr => hc r (by simp [hr])) _ _ _ _ _ _ h
      refine ⟨?_, ?_⟩
      · intro r' hr'
        rcases List.mem_cons.mp hr' with rfl | hr'
        · exact h1
        · exact h3 r' hr'
      · rw [h4, List.foldl_cons, h2]

theorem updateJacobian_value {r : Residual α} (hc : Consistent r) {x : Fin n → α}
    {A A' : Fin r.dim → Fin D → α} {b b' : Fin r.dim → α} (h : r.updateJacobian x r.dim r.dim A b = .ok (A', b')) :
    IdxIn r n ∧ b' = valueAt r x := by
  unfold Residual.updateJacobian at h
  rw [if_neg (by simp), if_neg (by simp)] at h
  by_cases hi : IdxIn r n
  · rw [gather_ok r x hi, params_eq] at h
    simp only at h
    split_ifs at h
    split at h
    · cases h
    · cases h
      exact ⟨hi, by rw [hc]; rfl⟩
  · obtain ⟨t, ht⟩ := gather_error r x hi
    rw [ht] at h; cases h

theorem linEqs_value {K : Nat} {x : Fin n → α} : ∀ (l : List (Residual α)) (_ : ∀ r ∈ l, Consistent r)
    (row : Nat) (A A' : Fin K → Fin D → α) (b b' : Fin K → α) (f f' : α),
    linEqs x l row A b f = .ok (A', b', f') →
    (∀ r ∈ l, IdxIn r n) ∧ f' = l.foldl (fun f r => f + lpNorm1 (valueAt r x)) f := by
  intro l
  induction l with
  | nil =>
    intro _ row A A' b b' f f' h
    simp only [linEqs] at h
    cases h; simp
  | cons r l ih =>
    intro hc row A A' b b' f f' h
    simp only [linEqs] at h
    split at h
    · split at h
      · cases h
      · rename_i A1 b1 he
        obtain ⟨h1, h2⟩ := updateJacobian_value (hc r (by simp)) he
        obtain ⟨h3, h4⟩ := ih (fun r hr => hc r (by simp [hr])) _ _ _ _ _ _ _ h
        refine ⟨?_, ?_⟩
        · intro r' hr'
          rcases List.mem_cons.mp hr' with rfl | hr'
          · exact h1
          · exact h3 r' hr'
        · rw [h4, List.foldl_cons, h2]
    · cases h

/-- The errors reported by the linearisation are those of the problem. -/
theorem linearize_errors {p : Problem D α} (hp : ConsistentP p) {x : Fin n → α} {lam : α}
    {qp qp' : QPData D p.M p.K α} {pre : Errors α} (h : linearize p x lam qp = .ok (qp', pre)) :
    IndicesOk p n ∧ pre = errorsAt p x := by
  unfold linearize at h
  split at h
  · cases h
  · rename_i G c f hcost
    simp only at h
    split at h
    · cases h
    · rename_i A b err heq
      split at h
      · cases h
      · cases h
        obtain ⟨h1, h2⟩ := linCosts_value p.costs (fun r hr => hp r (by simp [hr])) _ _ _ _ _ _ hcost
        obtain ⟨h3, h4⟩ := linEqs_value p.eqs (fun r hr => hp r (by simp [hr])) _ _ _ _ _ _ _ heq
        refine ⟨?_, by rw [h2, h4]; rfl⟩
        intro r hr
        rcases List.mem_append.mp hr with hr | hr
        · exact h1 r hr
        · exact h3 r hr

theorem retract_moves {env : Env n D α} {x y : Fin n → α} {dx : Fin D → α} {a : α}
    (h : retract env x dx a = .ok y) : Moves env x dx a y := by
  unfold retract at h
  unfold Moves
  split at h
  · rename_i R hR
    split_ifs at h
    cases h
    rw [hR]
  · rename_i hR
    rw [hR]
    split_ifs at h with hn
    cases h
    exact ⟨hn, rfl⟩

end MiniOpt.NLS
