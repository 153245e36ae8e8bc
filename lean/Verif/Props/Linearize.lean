import Verif.Lemmas.Linearize
import Mathlib.Algebra.Order.BigOperators.Group.List

/-!
# C33, C34: the QP built from a problem (exact arithmetic)
-/

set_option autoImplicit false

namespace MiniOpt.Props

open MiniOpt.Spec MiniOpt.NLS

variable {n D : Nat}

/-! ## C33 -/

theorem linCosts_perm (x : Fin n → ℝ) {l l' : List (Residual ℝ)} (h : l.Perm l') (G : Fin D → Fin D → ℝ)
    (c : Fin D → ℝ) (f : ℝ) (r) : linCosts x l G c f = .ok r ↔ linCosts x l' G c f = .ok r := by
  have key : ∀ {l l' : List (Residual ℝ)}, l.Perm l' → linCosts x l G c f = .ok r → linCosts x l' G c f = .ok r := by
    intro l l' h hl
    have hi := linCosts_idx hl
    obtain ⟨dH, db, ff, hadd⟩ := linCosts_add x l hi
    rw [linCosts_sum x dH db ff l hadd] at hl
    rw [linCosts_sum x dH db ff l' (fun r hr => hadd r (h.mem_iff.mpr hr)), ← hl]
    refine congrArg Except.ok (Prod.ext ?_ (Prod.ext ?_ ?_))
    · funext i j
      exact congrArg (G i j + ·) (h.map _).sum_eq.symm
    · funext i
      exact congrArg (c i + ·) (h.map _).sum_eq.symm
    · exact congrArg (f + ·) (h.map _).sum_eq.symm
  exact ⟨key h, key h.symm⟩

/-- **C33** (linearisation). Reordering the costs does not change the linearised problem, its error, or whether it
can be built at all. -/
theorem C33_linearize_order (p : Problem D ℝ) (costs' : List (Residual ℝ)) (h : p.costs.Perm costs') (x : Fin n → ℝ)
    (lam : ℝ) (qp : QPData D p.M p.K ℝ) (r : QPData D p.M p.K ℝ × Errors ℝ) :
    linearize p x lam qp = .ok r ↔ linearize (⟨costs', p.ineq, p.eqs⟩ : Problem D ℝ) x lam qp = .ok r := by
  have key : ∀ (l l' : List (Residual ℝ)), l.Perm l' →
      linearize (⟨l, p.ineq, p.eqs⟩ : Problem D ℝ) x lam qp = .ok r →
      linearize (⟨l', p.ineq, p.eqs⟩ : Problem D ℝ) x lam qp = .ok r := by
    intro l l' hp hl
    unfold linearize at hl ⊢
    cases hc : linCosts x l (fun _ (_ : Fin D) => (0 : ℝ)) (fun _ => 0) 0 with
    | error e => simp only [hc] at hl; cases hl
    | ok q =>
      have hc' := (linCosts_perm x hp _ _ _ q).mp hc
      simp only [hc] at hl
      simp only [hc']
      split at hl
      · cases hl
      · rename_i A b err he
        have he' : linEqs x (Problem.mk (D := D) l' p.ineq p.eqs).eqs 0
          (fun (_ : Fin (Problem.mk (D := D) l' p.ineq p.eqs).K) (_ : Fin D) => (0 : ℝ)) (fun _ => 0) 0 = .ok (A, b, err) := he
        rw [he']
        simp only
        split at hl
        · cases hl
        · rename_i con hs
          injection hl with hl
          exact congrArg Except.ok hl
  exact ⟨key _ _ h, key _ _ h.symm⟩

/-- **C33** (evaluation). Reordering the costs changes neither the error of the problem nor whether it can be
evaluated. -/
theorem C33_evaluate_order (p : Problem D ℝ) (costs' : List (Residual ℝ)) (h : p.costs.Perm costs') (x : Fin n → ℝ)
    (e : Errors ℝ) : evalErrors p x = .ok e ↔ evalErrors (⟨costs', p.ineq, p.eqs⟩ : Problem D ℝ) x = .ok e := by
  rw [evalErrors_ok_iff, evalErrors_ok_iff]
  have h1 : IndicesOk p n ↔ IndicesOk (⟨costs', p.ineq, p.eqs⟩ : Problem D ℝ) n := by
    unfold IndicesOk
    constructor
    · intro hi r hr
      exact hi r (by simpa [h.mem_iff] using hr)
    · intro hi r hr
      exact hi r (by simpa [h.mem_iff] using hr)
  have h2 : errorsAt p x = errorsAt (⟨costs', p.ineq, p.eqs⟩ : Problem D ℝ) x := by
    unfold errorsAt costAt violationAt
    congr 1
    exact h.foldl_eq' (fun a _ b _ f => by ring) 0
  have h3 : QuietP p x ↔ QuietP (⟨costs', p.ineq, p.eqs⟩ : Problem D ℝ) x := by
    unfold QuietP
    constructor
    · intro hi r hr
      exact hi r (by simpa [h.mem_iff] using hr)
    · intro hi r hr
      exact hi r (by simpa [h.mem_iff] using hr)
  rw [h1, h2, h3]

/-- The hypotheses are met, e.g. by swapping two different costs. -/
example : (⟨[sumResidual 0 1, sumResidual 1 0], [], []⟩ : Problem 2 ℝ).costs.Perm [sumResidual 1 0, sumResidual 0 1] :=
  List.Perm.swap _ _ _

/-! ## C34 -/

theorem list_sum_finset {β : Type} {m : Nat} (l : List β) (f : β → Fin m → ℝ) :
    ∑ i, (l.map fun r => f r i).sum = (l.map fun r => ∑ i, f r i).sum := by
  induction l with
  | nil => simp
  | cons a l ih => simp [Finset.sum_add_distrib, ih]

theorem gram_quad {d : Nat} (J : Fin d → Fin D → ℝ) (dx : Fin D → ℝ) :
    ∑ i, ∑ j, dx i * (∑ k, J k i * J k j) * dx j = ∑ k, (∑ j, J k j * dx j) ^ 2 := by
  have : ∀ k, (∑ j, J k j * dx j) ^ 2 = ∑ i, ∑ j, dx i * (J k i * J k j) * dx j := by
    intro k
    rw [sq, Finset.sum_mul_sum]
    exact Finset.sum_congr rfl fun i _ => Finset.sum_congr rfl fun j _ => by ring
  rw [Finset.sum_congr rfl fun k _ => this k]
  symm
  refine Finset.sum_comm.trans (Finset.sum_congr rfl fun i _ => ?_)
  refine Finset.sum_comm.trans (Finset.sum_congr rfl fun j _ => ?_)
  rw [Finset.mul_sum, Finset.sum_mul]

/-- **C34**. For a problem without user errors whose callables do not throw at `x`, the linearisation at `x` with damping `lambda` succeeds; its objective,
plus the reported error, is the Gauss-Newton model with the damping term; its equality rows are the stacked linear
models of the equality residuals; its constraints are the bounds shifted to `x`; and its Hessian (with the mirrored
lower triangle) is symmetric positive semidefinite. -/
theorem C34_gauss_newton (p : Problem D ℝ) (hp : WellPosed p n) (x : Fin n → ℝ)
    (hq : QuietJP p x) (lam : ℝ) (qp0 : QPData D p.M p.K ℝ) :
    ∃ qp pre, linearize p x lam qp0 = .ok (qp, pre) ∧ pre = errorsAt p x ∧
      (∀ dx : Fin D → ℝ, pre.f + (∑ i, qp.c i * dx i) + (1 / 2) * (∑ i, ∑ j, dx i * qp.G (max i j) (min i j) * dx j)
        = (p.costs.map fun r => (1 / 2) * ∑ k, linAt r x dx k ^ 2).sum + max lam 0 / 2 * ∑ i, dx i ^ 2) ∧
      (∀ dx : Fin D → ℝ, (List.ofFn fun k => (∑ j, qp.A k j * dx j) + qp.b k) = stackedModel x dx p.eqs) ∧
      List.ofFn qp.b = stackedValues x p.eqs ∧
      (∀ i : Fin p.M, qp.con i = ⟨(p.ineq.get i).var, (p.ineq.get i).a, boundAt (p.ineq.get i) x⟩) ∧
      (∀ dx : Fin D → ℝ, (∑ i, ∑ j, dx i * qp.G (max i j) (min i j) * dx j)
        = (p.costs.map fun r => ∑ k, (∑ j, jacAt r x D k j * dx j) ^ 2).sum + max lam 0 * ∑ i, dx i ^ 2) ∧
      ∀ dx : Fin D → ℝ, 0 ≤ ∑ i, ∑ j, dx i * qp.G (max i j) (min i j) * dx j := by
  have hcost : ∀ r ∈ p.costs, ∀ H b, r.updateHessian x H b = .ok
      (fun i j => H i j + if j ≤ i then ∑ k, jacAt r x D k i * jacAt r x D k j else 0,
        fun i => b i + ∑ k, jacAt r x D k i * valueAt r x k, (1 / 2) * ∑ k, valueAt r x k ^ 2) := by
    intro r hr H b
    exact updateHessian_distinct r x (hp.idx r (by simp [hr])) (hp.idxD r (by simp [hr])) (hp.distinct r (by simp [hr]))
      (hp.consistent r (by simp [hr])) (hq r (by simp [hr])) H b
  have hlin := linCosts_sum x (fun r i j => if j ≤ i then ∑ k, jacAt r x D k i * jacAt r x D k j else 0)
    (fun r i => ∑ k, jacAt r x D k i * valueAt r x k) (fun r => (1 / 2) * ∑ k, valueAt r x k ^ 2) p.costs hcost
    (fun _ _ => 0) (fun _ => 0) 0
  have heqs := fun dx => linEqs_model (K := p.K) x dx p.eqs
    (fun r hr => ⟨hp.idx r (by simp [hr]), hp.idxD r (by simp [hr]), hp.distinct r (by simp [hr]),
      hp.consistent r (by simp [hr]), hq r (by simp [hr])⟩) 0 (fun _ _ => 0) (fun _ => 0) 0 (by simp) (fun _ _ => rfl)
  obtain ⟨A, b, heq, -, hb⟩ := heqs fun _ => 0
  have hA : ∀ dx : Fin D → ℝ, (List.ofFn fun k => (∑ j, A k j * dx j) + b k) = stackedModel x dx p.eqs := by
    intro dx
    obtain ⟨A', b', heq', hm, _⟩ := heqs dx
    rw [heq] at heq'
    cases heq'
    simpa using hm
  have hshift := (shiftLoop_ok x p.ineq fun i => ⟨(p.ineq.get i).var, (p.ineq.get i).a, boundAt (p.ineq.get i) x⟩).mpr
    ⟨fun c hc => ⟨(hp.ineq c hc).1, (hp.ineq c hc).2.1⟩, fun i => rfl⟩
  set G0 : Fin D → Fin D → ℝ := fun i j =>
    0 + (p.costs.map fun r => if j ≤ i then ∑ k, jacAt r x D k i * jacAt r x D k j else 0).sum with hG0
  set G1 : Fin D → Fin D → ℝ :=
    if 0 < lam then fun i j => if i = j then G0 i j + lam else G0 i j else G0 with hG1
  have hok : linearize p x lam qp0 = .ok (⟨G1, fun i => 0 + (p.costs.map fun r => ∑ k, jacAt r x D k i * valueAt r x k).sum,
      A, b, fun i => ⟨(p.ineq.get i).var, (p.ineq.get i).a, boundAt (p.ineq.get i) x⟩⟩,
      ⟨0 + (p.costs.map fun r => (1 / 2) * ∑ k, valueAt r x k ^ 2).sum,
        0 + (p.eqs.map fun r => ∑ k, |valueAt r x k|).sum⟩) := by
    unfold linearize
    rw [hlin]
    simp only
    rw [heq]
    simp only
    rw [hshift]
  have hsym : ∀ i j, G1 (max i j) (min i j) = (p.costs.map fun r => ∑ k, jacAt r x D k i * jacAt r x D k j).sum
      + if i = j then max lam 0 else 0 := by
    intro i j
    have h0 : G0 (max i j) (min i j) = (p.costs.map fun r => ∑ k, jacAt r x D k i * jacAt r x D k j).sum := by
      rw [hG0]
      simp only [zero_add]
      refine congrArg List.sum (List.map_congr_left fun r _ => ?_)
      rw [if_pos (min_le_max)]
      rcases le_total i j with hij | hij
      · rw [max_eq_right hij, min_eq_left hij]
        exact Finset.sum_congr rfl fun k _ => mul_comm _ _
      · rw [max_eq_left hij, min_eq_right hij]
    have hd : max i j = min i j ↔ i = j := by
      rcases le_total i j with hij | hij
      · rw [max_eq_right hij, min_eq_left hij]; exact eq_comm
      · rw [max_eq_left hij, min_eq_right hij]
    rw [hG1]
    by_cases hl : 0 < lam
    · rw [if_pos hl, max_eq_left hl.le]
      simp only [hd, h0]
      split_ifs <;> simp
    · rw [if_neg hl, h0, max_eq_right (not_lt.mp hl)]; simp
  have hquad : ∀ dx : Fin D → ℝ, (∑ i, ∑ j, dx i * G1 (max i j) (min i j) * dx j)
      = (p.costs.map fun r => ∑ k, (∑ j, jacAt r x D k j * dx j) ^ 2).sum + max lam 0 * ∑ i, dx i ^ 2 := by
    intro dx
    simp only [hsym]
    have e1 : ∀ i j, dx i * ((p.costs.map fun r => ∑ k, jacAt r x D k i * jacAt r x D k j).sum
        + if i = j then max lam 0 else 0) * dx j
        = (p.costs.map fun r => dx i * (∑ k, jacAt r x D k i * jacAt r x D k j) * dx j).sum
          + (if i = j then max lam 0 * dx i ^ 2 else 0) := by
      intro i j
      rw [List.sum_map_mul_right, List.sum_map_mul_left]
      split_ifs with hij
      · subst hij; ring
      · ring
    simp only [e1, Finset.sum_add_distrib, Finset.sum_ite_eq, Finset.mem_univ, if_true]
    rw [← Finset.mul_sum]
    congr 1
    simp only [list_sum_finset]
    refine congrArg List.sum (List.map_congr_left fun r _ => ?_)
    exact gram_quad _ _
  have hpsd : ∀ dx : Fin D → ℝ, 0 ≤ ∑ i, ∑ j, dx i * G1 (max i j) (min i j) * dx j := by
    intro dx
    rw [hquad]
    refine add_nonneg (List.sum_nonneg ?_) (mul_nonneg (le_max_right _ _) (Finset.sum_nonneg fun i _ => sq_nonneg _))
    intro a ha
    obtain ⟨r, _, rfl⟩ := List.mem_map.mp ha
    exact Finset.sum_nonneg fun k _ => sq_nonneg _
  refine ⟨_, _, hok, (linearize_errors hp.consistent hok).2, ?_, hA, ?_, fun i => rfl, hquad, hpsd⟩
  · intro dx
    simp only [zero_add]
    rw [hquad]
    have e2 : ∑ i, (p.costs.map fun r => ∑ k, jacAt r x D k i * valueAt r x k).sum * dx i
        = (p.costs.map fun r => ∑ k, valueAt r x k * ∑ j, jacAt r x D k j * dx j).sum := by
      simp only [← List.sum_map_mul_right]
      rw [list_sum_finset]
      refine congrArg List.sum (List.map_congr_left fun r _ => ?_)
      simp only [Finset.sum_mul, Finset.mul_sum]
      rw [Finset.sum_comm]
      exact Finset.sum_congr rfl fun k _ => Finset.sum_congr rfl fun j _ => by ring
    rw [e2, mul_add, ← List.sum_map_mul_left, ← add_assoc, ← List.sum_map_add, ← List.sum_map_add]
    congr 1
    · refine congrArg List.sum (List.map_congr_left fun r _ => ?_)
      unfold linAt
      rw [Finset.mul_sum, Finset.mul_sum, Finset.mul_sum, ← Finset.sum_add_distrib, ← Finset.sum_add_distrib]
      exact Finset.sum_congr rfl fun k _ => by ring
    · ring
  · simpa using hb

/-- **C34** is not vacuous. -/
example : WellPosed (⟨[sumResidual 0 1], [⟨0, 1, 2⟩], [sumResidual 1 0]⟩ : Problem 2 ℝ) 2 := by
  have hi : ∀ a b : Int, 0 ≤ a → 0 ≤ b → a < 2 → b < 2 → IdxIn (sumResidual a b) 2 := by
    intro a b ha hb ha2 hb2 l
    fin_cases l <;> simp [sumResidual, *]
  have hd : ∀ a b : Int, a ≠ b → Distinct (sumResidual a b) := by
    intro a b hab l l' h
    fin_cases l <;> fin_cases l' <;> simp_all [sumResidual]
  constructor
  case ineq => intro c hc; simp at hc; subst hc; simp
  case consistent => intro r hr; simp at hr; rcases hr with rfl | rfl <;> intro q <;> rfl
  all_goals intro r hr; simp at hr; rcases hr with rfl | rfl
  all_goals first | exact hi _ _ (by norm_num) (by norm_num) (by norm_num) (by norm_num) | exact hd _ _ (by norm_num)

end MiniOpt.Props
