import Verif.Props.Totality
import Verif.Props.NLSLog

/-!
# Concrete nonlinear problems in exact arithmetic

Used only in `example`s: they show that the hypotheses of the theorems about exact arithmetic are met by actual runs
of the solver.  Existence of the runs follows from C65.

* `boundedEnv`: costs `x₀ - 3` and `x₀ x₁ - 1`, bounds `x₀ ≥ 1/2` and `x₁ ≤ 4` (interior point path);
* `curveEnv`: costs `x₀ - 3` and `x₁ - 1`, equality `x₀ + x₁² = 1` (null-space path);
* `freeEnv`: costs as in `boundedEnv`, no constraints;
* `mixedEnv`: costs and equality of `curveEnv` with the bound `x₁ ≤ 4` (interior point path with equalities).
-/

set_option autoImplicit false

namespace MiniOpt.DemoReal

open MiniOpt MiniOpt.Spec MiniOpt.NLS MiniOpt.Props

/-- A scalar residual of variables 0 and 1 with its partial derivatives. -/
def res2 (f fx fy : ℝ → ℝ → ℝ) : Residual ℝ where
  dim := 1
  P := 2
  index l := l.val
  value p _ := f (p 0) (p 1)
  valueJ p _ := f (p 0) (p 1)
  jac p _ l := if l = 0 then fx (p 0) (p 1) else fy (p 0) (p 1)

/-- `x₀ - 3`. -/
noncomputable def cost1 : Residual ℝ := res2 (fun x _ => x - 3) (fun _ _ => 1) fun _ _ => 0
/-- `x₀ x₁ - 1`. -/
noncomputable def cost2 : Residual ℝ := res2 (fun x y => x * y - 1) (fun _ y => y) fun x _ => x
/-- `x₁ - 1`. -/
noncomputable def cost3 : Residual ℝ := res2 (fun _ y => y - 1) (fun _ _ => 0) fun _ _ => 1
/-- `x₀ + x₁² - 1`. -/
noncomputable def curve : Residual ℝ := res2 (fun x y => x + y ^ 2 - 1) (fun _ _ => 1) fun _ y => 2 * y

/-- Memory contents of a newly created solver. -/
noncomputable def blank (M K : Nat) : IPState 2 M K ℝ :=
  ⟨.zero, .zero, fun _ => 0, fun _ _ => 0, fun _ _ => 0, .zero, .zero⟩

/-- The environment of a problem in two variables with exact linear algebra and no callback. -/
noncomputable def mkEnv (p : Problem 2 ℝ) : Env 2 2 ℝ where
  p := p
  retraction := none
  callback := none
  E := exactEigen
  NE := exactNS
  eigenvalues := fun G i => G i i
  freshIP := blank _ _
  freshNS := ⟨fun _ => 0⟩

noncomputable def boundedEnv : Env 2 2 ℝ := mkEnv ⟨[cost1, cost2], [⟨0, 1, -1 / 2⟩, ⟨1, -1, 4⟩], []⟩
noncomputable def curveEnv : Env 2 2 ℝ := mkEnv ⟨[cost1, cost3], [], [curve]⟩
noncomputable def freeEnv : Env 2 2 ℝ := mkEnv ⟨[cost1, cost2], [], []⟩
noncomputable def mixedEnv : Env 2 2 ℝ := mkEnv ⟨[cost1, cost3], [⟨1, -1, 4⟩], [curve]⟩

/-- A solver object, freshly constructed. -/
noncomputable def mkObj (p : Problem 2 ℝ) : (mkEnv p).Obj :=
  ⟨⟨fun _ _ => 0, fun _ => 0, fun _ _ => 0, fun _ => 0, fun _ => ⟨0, 0, 0⟩⟩, .ip (blank _ _), fun _ => 0, fun _ => 0,
    fun _ => 0, [], .nominal⟩

theorem res2_ok (f fx fy : ℝ → ℝ → ℝ) :
    IdxIn (res2 f fx fy) 2 ∧ Distinct (res2 f fx fy) ∧ Consistent (res2 f fx fy) := by
  refine ⟨fun l => ?_, fun a b h => ?_, fun _ => rfl⟩
  · have : l.val < 2 := l.isLt
    show 0 ≤ (l.val : Int) ∧ (l.val : Int) < 2
    omega
  · have h' : (a.val : Int) = (b.val : Int) := h
    exact Fin.ext (by omega)

theorem mk_wellPosed (p : Problem 2 ℝ) (h : ∀ r ∈ p.costs ++ p.eqs, ∃ f fx fy, r = res2 f fx fy)
    (hi : ∀ c ∈ p.ineq, 0 ≤ c.var ∧ c.var < 2) : WellPosed p 2 := by
  refine ⟨?_, ?_, ?_, ?_, ?_⟩
  · intro r hr; obtain ⟨f, fx, fy, rfl⟩ := h r hr; exact (res2_ok _ _ _).1
  · intro r hr; obtain ⟨f, fx, fy, rfl⟩ := h r hr; exact (res2_ok _ _ _).1
  · intro r hr; obtain ⟨f, fx, fy, rfl⟩ := h r hr; exact (res2_ok _ _ _).2.1
  · intro r hr; obtain ⟨f, fx, fy, rfl⟩ := h r hr; exact (res2_ok _ _ _).2.2
  · intro c hc; have := hi c hc; exact ⟨this.1, this.2, this.2⟩

theorem bounded_ok : WellPosed boundedEnv.p 2 := by
  refine mk_wellPosed _ ?_ ?_
  · intro r hr
    have hr' : r ∈ [cost1, cost2] := by simpa [boundedEnv, mkEnv] using hr
    rcases List.mem_cons.mp hr' with rfl | hr'
    · exact ⟨_, _, _, rfl⟩
    · rcases List.mem_singleton.mp hr' with rfl; exact ⟨_, _, _, rfl⟩
  · intro c hc
    have hc' : c ∈ [(⟨0, 1, -1 / 2⟩ : Ineq ℝ), ⟨1, -1, 4⟩] := hc
    rcases List.mem_cons.mp hc' with rfl | hc'
    · norm_num
    · rcases List.mem_singleton.mp hc' with rfl; norm_num

theorem free_ok : WellPosed freeEnv.p 2 := by
  refine mk_wellPosed _ ?_ ?_
  · intro r hr
    have hr' : r ∈ [cost1, cost2] := by simpa [freeEnv, mkEnv] using hr
    rcases List.mem_cons.mp hr' with rfl | hr'
    · exact ⟨_, _, _, rfl⟩
    · rcases List.mem_singleton.mp hr' with rfl; exact ⟨_, _, _, rfl⟩
  · intro c hc
    have hc' : c ∈ ([] : List (Ineq ℝ)) := hc
    cases hc'

theorem curve_ok : WellPosed curveEnv.p 2 := by
  refine mk_wellPosed _ ?_ ?_
  · intro r hr
    have hr' : r ∈ [cost1, cost3, curve] := by simpa [curveEnv, mkEnv] using hr
    rcases List.mem_cons.mp hr' with rfl | hr'
    · exact ⟨_, _, _, rfl⟩
    · rcases List.mem_cons.mp hr' with rfl | hr'
      · exact ⟨_, _, _, rfl⟩
      · rcases List.mem_singleton.mp hr' with rfl; exact ⟨_, _, _, rfl⟩
  · intro c hc
    have hc' : c ∈ ([] : List (Ineq ℝ)) := hc
    cases hc'

theorem mixed_ok : WellPosed mixedEnv.p 2 := by
  refine mk_wellPosed _ ?_ ?_
  · intro r hr
    have hr' : r ∈ [cost1, cost3, curve] := by simpa [mixedEnv, mkEnv] using hr
    rcases List.mem_cons.mp hr' with rfl | hr'
    · exact ⟨_, _, _, rfl⟩
    · rcases List.mem_cons.mp hr' with rfl | hr'
      · exact ⟨_, _, _, rfl⟩
      · rcases List.mem_singleton.mp hr' with rfl; exact ⟨_, _, _, rfl⟩
  · intro c hc
    have hc' : c ∈ [(⟨1, -1, 4⟩ : Ineq ℝ)] := hc
    rcases List.mem_singleton.mp hc' with rfl; norm_num

theorem nls_default_valid : NLSParamsValid (NLSParams.default : NLSParams ℝ) := by
  constructor <;> simp only [NLSParams.default, real_lit] <;> norm_num

/-- A run that does not end with an indefinite QP logs an iteration. -/
theorem run_nonempty {n D : Nat} {env : Env n D ℝ} {prm : NLSParams ℝ} (hk : 1 ≤ prm.maxIterations) {x0 : Fin n → ℝ}
    {o o' : env.Obj} {out : NLSOutputs ℝ} {calls : List (NLSIteration ℝ)}
    (h : solve env prm x0 o = .ok (o', out, calls)) (hq : out.termination ≠ .qpIndefinite) : out.iterations ≠ [] := by
  have := C46_termination env prm x0 o o' out calls h
  intro hn
  rw [hn] at this
  cases ht : out.termination with
  | maxIterations => simp only [ht] at this; simp at this; omega
  | qpIndefinite => exact hq ht
  | userCallback => simp only [ht] at this; obtain ⟨_, _, h, _⟩ := this; exact h rfl
  | _ => simp only [ht] at this; obtain ⟨_, h, _⟩ := this; simp at h

/-- Callables that never throw, in an environment without retraction and callback. -/
theorem mkEnv_quiet {p : Problem 2 ℝ} (h : NeverThrowsP p) : ¬ UserThrows (mkEnv p) := by
  rintro (⟨r, hr, q, hq⟩ | ⟨h, _⟩ | ⟨h, _⟩)
  · have := h r hr q
    rcases hq with hq | hq
    · rw [this.1] at hq; cases hq
    · rw [this.2] at hq; cases hq
  · exact h rfl
  · exact h rfl

/-- Closes `NeverThrowsP p` for a problem with a short list of residuals that have the default `throws`. -/
macro "never_throws" : tactic => `(tactic| (
  repeat refine List.forall_mem_cons.mpr (And.intro (fun _ => And.intro rfl rfl) ?_)
  exact fun _ h => absurd h List.not_mem_nil))

/-- The interior point path never fails with exact linear algebra. -/
theorem ip_run (p : Problem 2 ℝ) (hp : WellPosed p 2) (hu : ¬ (p.ineq = [] ∧ p.eqs ≠ [])) (ha : ∀ c ∈ p.ineq, c.a ≠ 0)
    (prm : NLSParams ℝ) (hprm : NLSParamsValid prm) (hpen : 0 < prm.equalityPenaltyInitial) (hk : 1 ≤ prm.maxIterations)
    (x0 : Fin 2 → ℝ) (hnt : NeverThrowsP p := by never_throws) :
    ∃ o' out calls, solve (mkEnv p) prm x0 (mkObj p) = .ok (o', out, calls) ∧ out.iterations ≠ [] := by
  rcases C65_nls_exceptions (mkEnv p) hp (Or.inl rfl) ha prm hprm hpen x0 (mkObj p) with
    ⟨⟨o', out, calls⟩, h⟩ | ⟨e, h, ht⟩
  · refine ⟨o', out, calls, h, run_nonempty hk h fun hq => ?_⟩
    have := C46_termination (mkEnv p) prm x0 _ o' out calls h
    rw [hq] at this
    exact hu ⟨this.2.1, this.2.2.1⟩
  · exfalso
    rcases ht with ⟨_, _, H, hH⟩ | ⟨h1, _⟩ | ⟨h1, _⟩ | ⟨_, hu'⟩
    rotate_right
    · exact mkEnv_quiet hnt hu'
    · exact exactEigen_total H hH
    · exact hu h1
    · exact hu h1

theorem bounded_run (prm : NLSParams ℝ) (hprm : NLSParamsValid prm) (hpen : 0 < prm.equalityPenaltyInitial)
    (hk : 1 ≤ prm.maxIterations) (x0 : Fin 2 → ℝ) :
    ∃ o' out calls, solve boundedEnv prm x0 (mkObj _) = .ok (o', out, calls) ∧ out.iterations ≠ [] := by
  refine ip_run _ bounded_ok (by simp [boundedEnv, mkEnv]) ?_ prm hprm hpen hk x0
  intro c hc
  have hc' : c ∈ [(⟨0, 1, -1 / 2⟩ : Ineq ℝ), ⟨1, -1, 4⟩] := hc
  rcases List.mem_cons.mp hc' with rfl | hc'
  · norm_num
  · rcases List.mem_singleton.mp hc' with rfl; norm_num

theorem free_run (prm : NLSParams ℝ) (hprm : NLSParamsValid prm) (hpen : 0 < prm.equalityPenaltyInitial)
    (hk : 1 ≤ prm.maxIterations) (x0 : Fin 2 → ℝ) :
    ∃ o' out calls, solve freeEnv prm x0 (mkObj _) = .ok (o', out, calls) ∧ out.iterations ≠ [] :=
  ip_run _ free_ok (by simp [freeEnv, mkEnv]) (fun c hc => by cases hc) prm hprm hpen hk x0

theorem mixed_run (prm : NLSParams ℝ) (hprm : NLSParamsValid prm) (hpen : 0 < prm.equalityPenaltyInitial)
    (hk : 1 ≤ prm.maxIterations) (x0 : Fin 2 → ℝ) :
    ∃ o' out calls, solve mixedEnv prm x0 (mkObj _) = .ok (o', out, calls) ∧ out.iterations ≠ [] := by
  refine ip_run _ mixed_ok (by simp [mixedEnv, mkEnv]) ?_ prm hprm hpen hk x0
  intro c hc
  have hc' : c ∈ [(⟨1, -1, 4⟩ : Ineq ℝ)] := hc
  rcases List.mem_singleton.mp hc' with rfl; norm_num

theorem res2_params (f fx fy : ℝ → ℝ → ℝ) (x : Fin 2 → ℝ) (l : Fin 2) : params (res2 f fx fy) x l = x l := by
  have h : 0 ≤ ((l.val : Nat) : Int) ∧ ((l.val : Nat) : Int) < ((2 : Nat) : Int) := by have := l.isLt; omega
  have : params (res2 f fx fy) x l = if h : 0 ≤ ((l.val : Nat) : Int) ∧ ((l.val : Nat) : Int) < ((2 : Nat) : Int) then
    x ⟨((l.val : Nat) : Int).toNat, by omega⟩ else 0 := rfl
  rw [this, dif_pos h]
  congr 1

theorem res2_value (f fx fy : ℝ → ℝ → ℝ) (x : Fin 2 → ℝ) (k : Fin 1) :
    valueAt (res2 f fx fy) x k = f (x 0) (x 1) := by
  show f (params (res2 f fx fy) x (0 : Fin 2)) (params (res2 f fx fy) x (1 : Fin 2)) = _
  rw [res2_params, res2_params]

theorem res2_jac (f fx fy : ℝ → ℝ → ℝ) (x : Fin 2 → ℝ) (k : Fin 1) (j : Fin 2) :
    jacAt (res2 f fx fy) x 2 k j = if j = 0 then fx (x 0) (x 1) else fy (x 0) (x 1) := by
  have : jacAt (res2 f fx fy) x 2 k j = ∑ l : Fin 2, if ((l.val : Nat) : Int) = ((j.val : Nat) : Int) then
      (if l = 0 then fx (params (res2 f fx fy) x (0 : Fin 2)) (params (res2 f fx fy) x (1 : Fin 2))
        else fy (params (res2 f fx fy) x (0 : Fin 2)) (params (res2 f fx fy) x (1 : Fin 2))) else 0 := rfl
  rw [this, res2_params, res2_params, Fin.sum_univ_two]
  fin_cases j <;> simp

theorem curve_lin (x dx : Fin 2 → ℝ) (k : Fin 1) :
    linAt curve x dx k = x 0 + x 1 ^ 2 - 1 + (dx 0 + 2 * x 1 * dx 1) := by
  have : linAt curve x dx k = valueAt curve x k + ∑ j : Fin 2, jacAt curve x 2 k j * dx j := rfl
  rw [this]
  unfold curve
  rw [Fin.sum_univ_two, res2_value, res2_jac, res2_jac]
  simp

/-- The null-space path does not fail on `curveEnv`: the constraint's gradient `(1, 2 x₁)` never vanishes and the
Hessian is positive definite. -/
theorem curve_run (prm : NLSParams ℝ) (hprm : NLSParamsValid prm) (hpen : 0 < prm.equalityPenaltyInitial)
    (hk : 1 ≤ prm.maxIterations) (x0 : Fin 2 → ℝ) :
    ∃ o' out calls, solve curveEnv prm x0 (mkObj _) = .ok (o', out, calls) ∧ out.iterations ≠ [] := by
  rcases C65_nls_exceptions curveEnv curve_ok (Or.inl rfl) (fun c hc => by cases hc) prm hprm hpen x0 (mkObj _) with
    ⟨⟨o', out, calls⟩, h⟩ | ⟨e, h, ht⟩
  · refine ⟨o', out, calls, h, run_nonempty hk h fun hq => ?_⟩
    have := C46_termination curveEnv prm x0 _ o' out calls h
    rw [hq] at this
    obtain ⟨_, _, _, lam, qp, qp0, pre, s, s', hl, hn⟩ := this
    obtain ⟨-, -, -, -, -, f6⟩ := linearize_facts curve_ok hl
    have hnot := (C28_not_posdef_truthful exactNS exactNS_contract _ s _ hn).1.mp rfl
    apply hnot
    intro d hd _
    have e : ∑ i, ∑ j, d i * Gsym (⟨qp.G, qp.c, qp.A, qp.b, Fin.elim0⟩ : QP 2 0 curveEnv.p.K ℝ) i j * d j
        = ∑ i, ∑ j, d i * qp.G (max i j) (min i j) * d j := rfl
    rw [e, f6]
    have hJ : (curveEnv.p.costs.map fun r => ∑ k, slopeAt r o'.vars d k ^ 2).sum = d 0 ^ 2 + d 1 ^ 2 := by
      have : (curveEnv.p.costs.map fun r => ∑ k, slopeAt r o'.vars d k ^ 2).sum
          = (∑ k : Fin 1, (∑ j : Fin 2, jacAt cost1 o'.vars 2 k j * d j) ^ 2)
            + ((∑ k : Fin 1, (∑ j : Fin 2, jacAt cost3 o'.vars 2 k j * d j) ^ 2) + 0) := rfl
      rw [this]
      unfold cost1 cost3
      simp only [res2_jac, Fin.sum_univ_two, Fin.sum_univ_one]
      simp
    rw [hJ]
    have h0 : 0 ≤ max lam 0 * ∑ i, d i ^ 2 :=
      mul_nonneg (le_max_right _ _) (Finset.sum_nonneg fun i _ => sq_nonneg _)
    have h1 : 0 < d 0 ^ 2 + d 1 ^ 2 := by
      by_contra hc
      apply hd
      have e0 : d 0 = 0 := by nlinarith [sq_nonneg (d 0), sq_nonneg (d 1)]
      have e1 : d 1 = 0 := by nlinarith [sq_nonneg (d 0), sq_nonneg (d 1)]
      funext i; fin_cases i <;> assumption
    linarith
  · exfalso
    rcases ht with ⟨h1, _⟩ | ⟨_, h2, _⟩ | ⟨_, _, _, hA, hR⟩ | ⟨_, hu'⟩
    rotate_right
    · exact mkEnv_quiet (by never_throws) hu'
    · exact h1 ⟨rfl, by simp [curveEnv, mkEnv]⟩
    · revert h2; decide
    · apply hR exactNS_contract.qr
      intro y hy
      have hrow : ∀ dx : Fin 2 → ℝ, (∑ j, e.2.qp.A ⟨0, by decide⟩ j * dx j) + e.2.qp.b ⟨0, by decide⟩
          = e.2.vars 0 + e.2.vars 1 ^ 2 - 1 + (dx 0 + 2 * e.2.vars 1 * dx 1) := by
        intro dx
        have := hA dx
        have h0 := congrArg List.head? this
        have hl : stackedModel e.2.vars dx curveEnv.p.eqs = [linAt curve e.2.vars dx (0 : Fin 1)] := by
          show List.ofFn _ ++ [] = _
          rw [List.append_nil]
          rfl
        rw [hl, curve_lin] at h0
        have h1 := Option.some.inj h0
        exact h1
      have h00 := hrow fun _ => 0
      have h10 := hrow fun j => if j = 0 then 1 else 0
      rw [Fin.sum_univ_two] at h00 h10
      simp only [mul_zero, add_zero, zero_add, if_true, mul_one, one_ne_zero, if_false] at h00 h10
      have hA0 : e.2.qp.A ⟨0, by decide⟩ 0 = 1 := by
        have : e.2.qp.A ⟨0, by decide⟩ 0 + e.2.qp.b ⟨0, by decide⟩ = e.2.vars 0 + e.2.vars 1 ^ 2 - 1 + 1 := h10
        have h00' : e.2.qp.b ⟨0, by decide⟩ = e.2.vars 0 + e.2.vars 1 ^ 2 - 1 := h00
        linarith
      have hy0 : ∑ k : Fin 1, e.2.qp.A k 0 * y k = 0 := hy 0
      rw [Fin.sum_univ_one] at hy0
      have hA0' : e.2.qp.A (0 : Fin 1) 0 = 1 := hA0
      rw [hA0', one_mul] at hy0
      funext k
      have : k = (0 : Fin 1) := Subsingleton.elim (α := Fin 1) k 0
      rw [this]; exact hy0

end MiniOpt.DemoReal
