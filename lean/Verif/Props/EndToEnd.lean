import Verif.Props.EigenQRNonlinear
import Verif.Props.LinearLS
import Verif.Props.ConstrainedLS

/-!
# C115: the solvers with Eigen's factorisations, from the call to the result

The other theorems assume that a call returned, or that the linear algebra does what it should. Here both are consequences:
`env.E` and `env.NE` are the transcriptions of Eigen's algorithms (`Model/EigenLDLT`, `Model/EigenQR`, exact arithmetic).
-/

set_option autoImplicit false

namespace MiniOpt.Props

open MiniOpt.Spec MiniOpt.NLS

variable {D : Nat}

/-- **C115** (linear least squares). `Solve` on residuals that are affine functions of the variables, with a Jacobian of full
column rank and no constraints, returns from every start: the variables are the unique minimiser, or the start itself, in which
case the cost there exceeds the minimum by less than half of `absolute_first_derivative_tol` and that is the reported reason. -/
theorem C115_least_squares (env : Env D D ℝ) (hE : env.E = LDLT.eigen D env.p.K 0) (hr : env.retraction = none)
    (hp : WellPosed env.p D) (haff : AffineCosts env.p) (hrank : FullRankCosts env.p) (hi : env.p.ineq = [])
    (he : env.p.eqs = []) (hq : ¬ UserThrows env) (prm : NLSParams ℝ) (hprm : NLSParamsValid prm)
    (hpen : 0 < prm.equalityPenaltyInitial) (hk : 1 ≤ prm.maxIterations) (hlam : prm.lambdaInitial ≤ 0)
    (x0 : Fin D → ℝ) (o : env.Obj) :
    ∃ o' out calls, solve env prm x0 o = .ok (o', out, calls) ∧
    ∃ best : Fin D → ℝ, (∀ y, y ≠ best → costAt env.p best < costAt env.p y) ∧
      (o'.vars = best ∨
        (o'.vars = x0 ∧ out.termination = .satisfiedFirstOrderTol ∧
          2 * (costAt env.p x0 - costAt env.p best) < prm.absoluteFirstDerivativeTol)) := by
  have hf : ∀ x : Fin D → ℝ, FullRank env.p x := fun x t => ⟨fun _ => 0, by
    rw [he]; unfold stackedModel
    have : env.p.K = 0 := by simp [Problem.K, he]
    revert t; rw [this]; intro t; simp⟩
  have hseen : ∀ (x d : Fin D → ℝ), d ≠ 0 → CostSees env.p x d := fun x d hd => by
    by_contra hn
    have := hrank x d hd
    rw [(cost_form x d).2.2 hn] at this
    exact lt_irrefl _ this
  obtain ⟨⟨o', out, calls⟩, h⟩ := C112_returns env hE hp (Or.inl rfl) (fun c hc => by rw [hi] at hc; simp at hc) (Or.inl he) prm
    hprm hpen hq hf (Or.inr fun x d hd => Or.inl (hseen x d hd)) x0 o
  have hne : out.iterations ≠ [] := DemoReal.run_nonempty hk h (fun ht => by
    have := C46_termination env prm x0 o o' out calls h
    rw [ht] at this
    exact this.2.2.1 he)
  obtain ⟨best, hb, -, hres⟩ := C50_linear_least_squares env (by rw [hE]; exact C111_contract _ _) hr hp haff hrank hi he prm hlam
    x0 o o' out calls h hne
  refine ⟨o', out, calls, h, best, hb, ?_⟩
  rcases hres with ⟨h1, -, h3, h4⟩ | ⟨-, -, h3⟩
  · exact Or.inr ⟨h3, h1, h4⟩
  · exact Or.inl h3

/-- The gradients of the equality constraints at `x` are independent, in terms of the rows of the matrix. -/
theorem rows_independent {n : Nat} {p : Problem D ℝ} {x : Fin n → ℝ} (hf : FullRank p x) (A : Fin p.K → Fin D → ℝ)
    (hA : List.ofFn A = gradients x p.eqs) : RowsIndependent A := by
  intro y hy
  have hlen : (stackedValues x p.eqs).length = p.K := by
    rw [← gradients_length (D := D) x p.eqs, ← hA, List.length_ofFn]
  obtain ⟨dx, hdx⟩ := hf fun k => y k + (stackedValues x p.eqs)[k.val]'(by rw [hlen]; exact k.isLt)
  rw [model_zip, ← hA] at hdx
  have hk : ∀ k : Fin p.K, ∑ j, A k j * dx j = y k := fun k => by
    have h := congrArg (fun l : List ℝ => l[k.val]?) hdx
    rw [List.getElem?_zipWith, List.getElem?_ofFn, List.getElem?_ofFn, dif_pos k.isLt, dif_pos k.isLt,
      List.getElem?_eq_getElem (by rw [hlen]; exact k.isLt)] at h
    have := Option.some.inj h
    linarith
  have hz : ∑ k, y k * y k = 0 := by
    calc ∑ k, y k * y k = ∑ k, y k * ∑ j, A k j * dx j := Finset.sum_congr rfl fun k _ => by rw [hk]
      _ = ∑ j, (∑ k, A k j * y k) * dx j := by
        simp only [Finset.mul_sum, Finset.sum_mul]
        rw [Finset.sum_comm]
        exact Finset.sum_congr rfl fun j _ => Finset.sum_congr rfl fun k _ => by ring
      _ = 0 := by simp [hy]
  funext k
  have := (Finset.sum_eq_zero_iff_of_nonneg fun k _ => mul_self_nonneg (y k)).mp hz k (Finset.mem_univ k)
  simpa using this

theorem separated_zero {K n : Nat} {A : Fin K → Fin n → ℝ} (h : RowsIndependent A) (t : ℝ) (ht : t = 0) : Separated t A := by
  intro y k hk l
  rw [ht, zero_mul, QR.norm2_real, Real.sqrt_pos]
  refine lt_of_le_of_ne (Finset.sum_nonneg fun i _ => mul_self_nonneg _) fun h0 => ?_
  have hz := (Finset.sum_eq_zero_iff_of_nonneg fun i _ => mul_self_nonneg (∑ j, A j i * y j)).mp h0.symm
  have := congrFun (h y fun j => by simpa using hz j (Finset.mem_univ j)) k
  rw [hk] at this
  simp at this

/-- **C115** (equality constraints). A well-posed problem with equality and without inequality constraints, whose constraint
gradients are independent at every point: `Solve` returns. If moreover the costs see every direction that the linearised
constraints leave free, it does not report `QP_INDEFINITE`. -/
theorem C115_equality_returns {n : Nat} (env : Env n D ℝ) (dd : ℝ) (hE : env.NE = QR.eigenNS 0 0 dd) (hp : WellPosed env.p n)
    (hr : n = D ∨ env.retraction ≠ none) (hi : env.p.ineq = []) (heq : 0 < env.p.K)
    (hf : ∀ x : Fin n → ℝ, FullRank env.p x) (hq : ¬ UserThrows env) (prm : NLSParams ℝ) (hprm : NLSParamsValid prm)
    (hpen : 0 < prm.equalityPenaltyInitial) (x0 : Fin n → ℝ) (o : env.Obj) :
    ∃ o' out calls, solve env prm x0 o = .ok (o', out, calls) ∧
    ((∀ (x : Fin n → ℝ) (d : Fin D → ℝ), d ≠ 0 → (∀ r ∈ env.p.eqs, ∀ k, slopeAt r x d k = 0) → CostSees env.p x d) →
      out.termination ≠ .qpIndefinite) := by
  obtain ⟨⟨o', out, calls⟩, h⟩ := C114_returns env 0 dd le_rfl hE hp hr hi heq prm hprm hpen hq
    (fun x A hA => separated_zero (rows_independent (hf x) A hA) _ (mul_zero _)) x0 o
  refine ⟨o', out, calls, h, fun hsee ht => ?_⟩
  have := C46_termination env prm x0 o o' out calls h
  rw [ht] at this
  obtain ⟨-, -, -, lam, qp, qp0, pre, s, s', hl, hns⟩ := this
  rw [hE] at hns
  obtain ⟨-, -, h3⟩ := C113_outcome 0 dd le_rfl _ s _ hns
  refine h3.mp rfl fun d hd hnull => ?_
  obtain ⟨-, -, hA, hb, -, hG⟩ := linearize_facts hp hl
  have hslope := stacked_slopes (o'.vars) d env.p.eqs (by
    rw [← hA d, ← hb]
    exact congrArg List.ofFn (funext fun k => by rw [show ∑ j, qp.A k j * d j = 0 from hnull k, zero_add]))
  have hform := hG d
  have hc := (cost_form o'.vars d).2.1 (hsee _ d hd hslope)
  have hn : 0 ≤ max lam 0 * ∑ i, d i ^ 2 :=
    mul_nonneg (le_max_right _ _) (Finset.sum_nonneg fun i _ => sq_nonneg (d i))
  calc (0 : ℝ) < _ := add_pos_of_pos_of_nonneg hc hn
    _ = _ := hform.symm

/-- **C115** (constrained linear least squares). `Solve` on affine costs with affine, independent equality constraints and a
unique minimiser among the points that satisfy them returns. From a start that satisfies the constraints, the variables are that
minimiser, or the start itself, and then the reported reason is `SATISFIED_FIRST_ORDER_TOL`. -/
theorem C115_constrained_least_squares (env : Env D D ℝ) (dd : ℝ) (hE : env.NE = QR.eigenNS 0 0 dd) (hr : env.retraction = none)
    (hp : WellPosed env.p D) (haff : AffineCosts env.p) (heq : AffineEqs env.p) (hi : env.p.ineq = []) (hK : 0 < env.p.K)
    (hf : ∀ x : Fin D → ℝ, FullRank env.p x)
    (hsee : ∀ (x : Fin D → ℝ) (d : Fin D → ℝ), d ≠ 0 → (∀ r ∈ env.p.eqs, ∀ k, slopeAt r x d k = 0) → CostSees env.p x d)
    (hq : ¬ UserThrows env) (prm : NLSParams ℝ) (hprm : NLSParamsValid prm)
    (hpen : 0 < prm.equalityPenaltyInitial) (hk : 1 ≤ prm.maxIterations) (hlam : prm.lambdaInitial ≤ 0)
    (x0 : Fin D → ℝ) (hx0 : SatisfiesEqs env.p x0) (o : env.Obj) :
    ∃ o' out calls, solve env prm x0 o = .ok (o', out, calls) ∧
      (BestFeasible env.p o'.vars ∨ (o'.vars = x0 ∧ out.termination = .satisfiedFirstOrderTol)) := by
  obtain ⟨o', out, calls, h, hind⟩ := C115_equality_returns env dd hE hp (Or.inl rfl) hi hK hf hq prm hprm hpen x0 o
  have hne := DemoReal.run_nonempty hk h (hind hsee)
  refine ⟨o', out, calls, h, ?_⟩
  rcases C98_feasible_start env (by rw [hE]; exact C113_contract dd) hr hp haff heq hi
    (fun h => by simp [Problem.K, h] at hK) prm hlam x0 hx0 o o' out calls h hne with ⟨h1, -⟩ | ⟨h1, -, h3⟩
  · exact Or.inl h1
  · exact Or.inr ⟨h3, h1⟩

/-- **C115** (quadratic programs). A QP with positive definite `G`, independent equality rows and bounds on variables, solved
with any valid parameters and an initial guess that is not the user's: `Solve` returns. Without bounds the result is the
minimiser, found in one iteration. With bounds, slacks and multipliers of the result are positive, and if it reports
`SATISFIED_KKT_TOL`, its objective exceeds that of any feasible point by at most the tolerances times the distance to that
point and the sizes of the multipliers. -/
theorem C115_quadratic_program {N M K : Nat} (p : QP N M K ℝ) (hG : PosDefG p) (hA : IndependentRows p) (ha : ∀ m, (p.con m).a ≠ 0)
    (prm : QPParams ℝ) (hprm : MiniOpt.checkParams prm = .ok ()) (hg : prm.initialGuessMethod ≠ .userProvided)
    (st : IPState N M K ℝ) (hwf : IP.WF st) :
    ∃ st' out, IP.solve (LDLT.eigen N K 0) p prm st = .ok (st', out) ∧
      (M = 0 → 0 < prm.terminationComplementarityTol →
        Feasible p st'.v.x ∧ ∀ x', Feasible p x' → x' ≠ st'.v.x → objective p st'.v.x < objective p x') ∧
      (∀ m, 0 < st'.v.s m ∧ 0 < st'.v.z m) ∧
      (out.termination = .satisfiedKktTol → ∀ x', Feasible p x' →
        objective p st'.v.x - objective p x' ≤
          M * prm.terminationComplementarityTol + prm.terminationKktTol * l2 (fun i => st'.v.x i - x' i)
            + prm.terminationKktTol * l2 st'.v.y + prm.terminationKktTol * l2 st'.v.z) := by
  have hP : PSDG p := fun x => by
    by_cases hx : x = 0
    · subst hx; simp
    · exact (hG x hx).le
  have hN : PosDefOnNull p := fun d hd _ => hG d hd
  have hret : ∃ r, IP.solve (LDLT.eigen N K 0) p prm st = .ok r := by
    cases hm : prm.initialGuessMethod with
    | naive => exact (C111_solve p hP (hN.regular hA) ha prm hprm st hwf (Or.inl hm)).1.mpr fun d hd _ => hG d hd
    | solveEqualityConstrained => exact (C111_equality_guess p hP hA hN ha prm hprm st hwf hm).1.mpr hG
    | userProvided => exact absurd hm hg
  obtain ⟨⟨st', out⟩, h⟩ := hret
  obtain ⟨hs, hz⟩ := (C07_slacks_positive _ p prm st (Or.inl hg)).1 _ h
  refine ⟨st', out, h, fun hM hct => ?_, fun m => ⟨hs m, hz m⟩, fun ht x' hx' =>
    C12_near_optimal _ p hP prm st (Or.inl hg) _ h ht x' hx'⟩
  obtain ⟨h1, -, h3⟩ := one_iteration_of_zero hM _ (C111_contract N K) p hG hA prm hct st hwf _ h
  exact ⟨h1, h3⟩

end MiniOpt.Props
