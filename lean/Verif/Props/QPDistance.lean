import Verif.Spec.QPExactSpec
import Verif.Props.QPResult
import Verif.Props.QPMore
import Verif.Props.NullSpace
import Verif.Props.EigenLDLT
import Verif.Props.EigenQR

/-!
# How far the reported solution of a QP is from the exact one (C122)
-/

set_option autoImplicit false

namespace MiniOpt.Props

open MiniOpt MiniOpt.Spec MiniOpt.IP

variable {N M K : Nat}

/-- **C122** (what an exact solution is). For a convex objective, an exact solution of the KKT conditions is feasible and its
objective is the least of all feasible points. -/
theorem C122_exact_is_minimiser (p : QP N M K ℝ) (hG : PSDG p) (w : Blocks N M K ℝ) (hw : ExactSolution p w) :
    Feasible p w.x ∧ ∀ x', Feasible p x' → objective p w.x ≤ objective p x' := by
  refine ⟨⟨fun m => by rw [← hw.slack]; exact hw.ineq m, hw.eq⟩, fun x' hx' => ?_⟩
  have hb := gap_bound p hG w hw.mult x' hx'
  have e1 : gradLagrangian p w = fun _ => 0 := funext hw.dual
  have e2 : eqVal p w.x = fun _ => 0 := funext hw.eq
  have e3 : (fun m => ineqVal p w.x m - w.s m) = fun _ => 0 := funext fun m => by rw [hw.slack]; ring
  have e4 : ∑ m, w.s m * w.z m = 0 := Finset.sum_eq_zero fun m _ => by
    rcases hw.comp m with h | h <;> rw [h] <;> ring
  have e0 : ∀ n : Nat, l2 (fun _ : Fin n => (0 : ℝ)) = 0 := fun n => by simp [l2]
  rw [e1, e2, e3, e4, e0, e0, e0] at hb
  linarith

/-- The difference of two points, measured with `G`: an identity. -/
theorem energy_identity (p : QP N M K ℝ) (v w : Blocks N M K ℝ) :
    energy p (fun i => v.x i - w.x i) =
      (∑ i, (gradLagrangian p v i - gradLagrangian p w i) * (v.x i - w.x i))
      + (∑ k, (v.y k - w.y k) * (eqVal p v.x k - eqVal p w.x k))
      + ∑ m, (v.z m - w.z m) * (ineqVal p v.x m - ineqVal p w.x m) := by
  have hgrad : ∀ i, (∑ j, Gsym p i j * (v.x j - w.x j)) = (gradLagrangian p v i - gradLagrangian p w i)
      + (∑ k, p.A k i * (v.y k - w.y k))
      + ∑ m, if (p.con m).var = i then (p.con m).a * (v.z m - w.z m) else 0 := fun i => by
    unfold gradLagrangian
    have a1 : ∑ j, Gsym p i j * (v.x j - w.x j) = (∑ j, Gsym p i j * v.x j) - ∑ j, Gsym p i j * w.x j := by
      rw [← Finset.sum_sub_distrib]; exact Finset.sum_congr rfl fun j _ => by ring
    have a2 : ∑ k, p.A k i * (v.y k - w.y k) = (∑ k, p.A k i * v.y k) - ∑ k, p.A k i * w.y k := by
      rw [← Finset.sum_sub_distrib]; exact Finset.sum_congr rfl fun j _ => by ring
    have a3 : (∑ m, if (p.con m).var = i then (p.con m).a * (v.z m - w.z m) else 0) =
        (∑ m, if (p.con m).var = i then (p.con m).a * v.z m else 0) - ∑ m, if (p.con m).var = i then (p.con m).a * w.z m else 0 := by
      rw [← Finset.sum_sub_distrib]
      exact Finset.sum_congr rfl fun m _ => by split <;> ring
    rw [a1, a2, a3]; ring
  have e1 : ∑ i, (∑ k, p.A k i * (v.y k - w.y k)) * (v.x i - w.x i)
      = ∑ k, (v.y k - w.y k) * (eqVal p v.x k - eqVal p w.x k) := by
    simp only [Finset.sum_mul]
    rw [Finset.sum_comm]
    refine Finset.sum_congr rfl fun k _ => ?_
    have : eqVal p v.x k - eqVal p w.x k = ∑ i, p.A k i * (v.x i - w.x i) := by
      unfold eqVal
      rw [add_sub_add_right_eq_sub, ← Finset.sum_sub_distrib]
      exact Finset.sum_congr rfl fun i _ => by ring
    rw [this, Finset.mul_sum]
    exact Finset.sum_congr rfl fun i _ => by ring
  have e2 : ∑ i, (∑ m, if (p.con m).var = i then (p.con m).a * (v.z m - w.z m) else 0) * (v.x i - w.x i)
      = ∑ m, (v.z m - w.z m) * (ineqVal p v.x m - ineqVal p w.x m) := by
    simp only [Finset.sum_mul]
    rw [Finset.sum_comm]
    refine Finset.sum_congr rfl fun m _ => ?_
    simp only [ite_mul, zero_mul, Finset.sum_ite_eq, Finset.mem_univ, if_true]
    unfold ineqVal; ring
  have e3 : energy p (fun i => v.x i - w.x i) = ∑ i, (∑ j, Gsym p i j * (v.x j - w.x j)) * (v.x i - w.x i) := by
    unfold energy
    refine Finset.sum_congr rfl fun i _ => ?_
    rw [Finset.sum_mul]
    exact Finset.sum_congr rfl fun j _ => by ring
  rw [e3, ← e1, ← e2, ← Finset.sum_add_distrib, ← Finset.sum_add_distrib]
  exact Finset.sum_congr rfl fun i _ => by rw [hgrad i]; ring

/-- **C122** (distance). When `SATISFIED_KKT_TOL` is reported: the distance of the returned `x` from any exact solution, measured
with `G`, the products of the returned multipliers with the exact slacks, and those of the exact multipliers with the returned
slacks, are together at most `M * comp_tol + tol * (‖x - x*‖ + ‖y - y*‖ + ‖z - z*‖)`. (`G` need not be positive definite.) -/
theorem C122_distance (E : Eigen N K ℝ) (p : QP N M K ℝ) (prm : QPParams ℝ)
    (st : IPState N M K ℝ) (r : IPState N M K ℝ × QPOutputs ℝ)
    (h : solve E p prm st = .ok r) (hT : r.2.termination = .satisfiedKktTol) (w : Blocks N M K ℝ) (hw : ExactSolution p w) :
    energy p (fun i => r.1.v.x i - w.x i) + (∑ m, r.1.v.z m * w.s m) + (∑ m, w.z m * r.1.v.s m) ≤
      M * prm.terminationComplementarityTol + prm.terminationKktTol *
        (l2 (fun i => r.1.v.x i - w.x i) + l2 (fun k => r.1.v.y k - w.y k) + l2 (fun m => r.1.v.z m - w.z m)) := by
  obtain ⟨h1, h2, h3, h4, _⟩ := C11_satisfied_truthful E p prm st r h hT
  generalize r.1.v = v at *
  have hid := energy_identity p v w
  have b5 : ∑ m, v.s m * v.z m ≤ M * prm.terminationComplementarityTol := by
    by_cases hM : 0 < M
    · have hM' : (0 : ℝ) < M := by exact_mod_cast hM
      unfold avgComp at h4
      rw [div_lt_iff₀ hM'] at h4
      linarith
    · obtain rfl : M = 0 := by omega
      simp
  have c1 : ∑ i, (gradLagrangian p v i - gradLagrangian p w i) * (v.x i - w.x i)
      = ∑ i, gradLagrangian p v i * (v.x i - w.x i) := Finset.sum_congr rfl fun i _ => by rw [hw.dual]; ring
  have c2 : ∑ k, (v.y k - w.y k) * (eqVal p v.x k - eqVal p w.x k) = ∑ k, eqVal p v.x k * (v.y k - w.y k) :=
    Finset.sum_congr rfl fun k _ => by rw [hw.eq]; ring
  have c3 : ∑ m, (v.z m - w.z m) * (ineqVal p v.x m - ineqVal p w.x m)
      = (∑ m, (ineqVal p v.x m - v.s m) * (v.z m - w.z m)) + (∑ m, v.s m * v.z m) - (∑ m, v.z m * w.s m)
        - ∑ m, w.z m * v.s m := by
    rw [← Finset.sum_add_distrib, ← Finset.sum_sub_distrib, ← Finset.sum_sub_distrib]
    refine Finset.sum_congr rfl fun m _ => ?_
    have hc : w.s m * w.z m = 0 := by rcases hw.comp m with h | h <;> rw [h] <;> ring
    rw [← hw.slack]
    nlinarith [hc]
  have b1 := sum_mul_le_l2 (gradLagrangian p v) fun i => v.x i - w.x i
  have b2 := sum_mul_le_l2 (eqVal p v.x) fun k => v.y k - w.y k
  have b3 := sum_mul_le_l2 (fun m => ineqVal p v.x m - v.s m) fun m => v.z m - w.z m
  have d1 := mul_le_mul_of_nonneg_right h1.le (l2_nonneg fun i => v.x i - w.x i)
  have d2 := mul_le_mul_of_nonneg_right h2.le (l2_nonneg fun k => v.y k - w.y k)
  have d3 := mul_le_mul_of_nonneg_right h3.le (l2_nonneg fun m => v.z m - w.z m)
  rw [hid, c1, c2, c3]
  have : prm.terminationKktTol *
        (l2 (fun i => v.x i - w.x i) + l2 (fun k => v.y k - w.y k) + l2 (fun m => v.z m - w.z m)) =
      prm.terminationKktTol * l2 (fun i => v.x i - w.x i) + prm.terminationKktTol * l2 (fun k => v.y k - w.y k)
      + prm.terminationKktTol * l2 (fun m => v.z m - w.z m) := by ring
  linarith

/-- **C122** (strong convexity). If `G` is at least `sigma` times the identity, the returned `x` is within
`tol / sigma + sqrt ((M * comp_tol + tol * (‖y - y*‖ + ‖z - z*‖)) / sigma)` of every exact solution. -/
theorem C122_strongly_convex (E : Eigen N K ℝ) (p : QP N M K ℝ) (prm : QPParams ℝ)
    (st : IPState N M K ℝ) (hg : GoodStart prm st) (r : IPState N M K ℝ × QPOutputs ℝ)
    (h : solve E p prm st = .ok r) (hT : r.2.termination = .satisfiedKktTol) (w : Blocks N M K ℝ) (hw : ExactSolution p w)
    (sigma : ℝ) (hs : 0 < sigma) (hG : ∀ d : Fin N → ℝ, sigma * l2 d ^ 2 ≤ energy p d) :
    l2 (fun i => r.1.v.x i - w.x i) ≤ prm.terminationKktTol / sigma +
      Real.sqrt ((M * prm.terminationComplementarityTol + prm.terminationKktTol *
        (l2 (fun k => r.1.v.y k - w.y k) + l2 (fun m => r.1.v.z m - w.z m))) / sigma) := by
  have hd := C122_distance E p prm st r h hT w hw
  obtain ⟨h1, -, -, h4, -⟩ := C11_satisfied_truthful E p prm st r h hT
  obtain ⟨ps, pz⟩ := (C07_slacks_positive E p prm st hg).1 r h
  have htol : 0 < prm.terminationKktTol := lt_of_le_of_lt (l2_nonneg _) h1
  have hctol : 0 ≤ M * prm.terminationComplementarityTol := by
    refine mul_nonneg (Nat.cast_nonneg M) (le_trans ?_ h4.le)
    exact div_nonneg (Finset.sum_nonneg fun m _ => (mul_pos (ps m) (pz m)).le) (Nat.cast_nonneg M)
  have n1 : 0 ≤ ∑ m, r.1.v.z m * w.s m := Finset.sum_nonneg fun m _ => mul_nonneg (pz m).le (hw.ineq m)
  have n2 : 0 ≤ ∑ m, w.z m * r.1.v.s m := Finset.sum_nonneg fun m _ => mul_nonneg (hw.mult m) (ps m).le
  have hq := hG fun i => r.1.v.x i - w.x i
  have hy := l2_nonneg fun k => r.1.v.y k - w.y k
  have hz := l2_nonneg fun m => r.1.v.z m - w.z m
  have ht := l2_nonneg fun i => r.1.v.x i - w.x i
  generalize l2 (fun i => r.1.v.x i - w.x i) = t at *
  generalize l2 (fun k => r.1.v.y k - w.y k) = ty at *
  generalize l2 (fun m => r.1.v.z m - w.z m) = tz at *
  generalize M * prm.terminationComplementarityTol = c at *
  generalize prm.terminationKktTol = tol at *
  have hB : 0 ≤ c + tol * (ty + tz) := add_nonneg hctol (mul_nonneg htol.le (add_nonneg hy hz))
  have hmain : sigma * t ^ 2 ≤ tol * t + (c + tol * (ty + tz)) := by nlinarith
  have hc2 : Real.sqrt ((c + tol * (ty + tz)) / sigma) ^ 2 = (c + tol * (ty + tz)) / sigma :=
    Real.sq_sqrt (div_nonneg hB hs.le)
  have hc0 := Real.sqrt_nonneg ((c + tol * (ty + tz)) / sigma)
  generalize Real.sqrt ((c + tol * (ty + tz)) / sigma) = q at *
  by_contra hn
  push Not at hn
  have ha : 0 ≤ tol / sigma := (div_pos htol hs).le
  have hm : t ^ 2 ≤ tol / sigma * t + q ^ 2 := by
    rw [hc2]
    have : tol / sigma * t + (c + tol * (ty + tz)) / sigma = (tol * t + (c + tol * (ty + tz))) / sigma := by ring
    rw [this, le_div_iff₀ hs]
    linarith
  have k1 : q < t - tol / sigma := by linarith
  have k2 : q < t := by linarith
  nlinarith [mul_pos (sub_pos.mpr k1) (lt_of_le_of_lt hc0 k2), mul_nonneg hc0 (sub_nonneg.mpr k2.le)]

/-- **C122** (which constraints are tight). For a convex objective, when `SATISFIED_KKT_TOL` is reported: where the exact solution
keeps a distance from a constraint the returned multiplier is small, and where the exact multiplier is not zero the returned slack
is small. -/
theorem C122_active_set (E : Eigen N K ℝ) (p : QP N M K ℝ) (hG : PSDG p) (prm : QPParams ℝ)
    (st : IPState N M K ℝ) (hg : GoodStart prm st) (r : IPState N M K ℝ × QPOutputs ℝ)
    (h : solve E p prm st = .ok r) (hT : r.2.termination = .satisfiedKktTol) (w : Blocks N M K ℝ) (hw : ExactSolution p w)
    (m : Fin M) :
    r.1.v.z m * ineqVal p w.x m + w.z m * r.1.v.s m ≤
      M * prm.terminationComplementarityTol + prm.terminationKktTol *
        (l2 (fun i => r.1.v.x i - w.x i) + l2 (fun k => r.1.v.y k - w.y k) + l2 (fun m => r.1.v.z m - w.z m)) := by
  have hd := C122_distance E p prm st r h hT w hw
  obtain ⟨ps, pz⟩ := (C07_slacks_positive E p prm st hg).1 r h
  have hq : 0 ≤ energy p (fun i => r.1.v.x i - w.x i) := hG _
  have n1 : r.1.v.z m * w.s m ≤ ∑ m, r.1.v.z m * w.s m :=
    Finset.single_le_sum (f := fun m => r.1.v.z m * w.s m) (fun m _ => mul_nonneg (pz m).le (hw.ineq m)) (Finset.mem_univ m)
  have n2 : w.z m * r.1.v.s m ≤ ∑ m, w.z m * r.1.v.s m :=
    Finset.single_le_sum (f := fun m => w.z m * r.1.v.s m) (fun m _ => mul_nonneg (hw.mult m) (ps m).le) (Finset.mem_univ m)
  rw [← hw.slack m]
  linarith

/-- **C122** (the two solvers agree). On a QP without inequality constraints the interior point solver and the null-space solver
return the same `x` whenever both return one, whatever the parameters and the states of the solver objects. -/
theorem C122_solvers_agree (E : Eigen N K ℝ) (hE : LDLTContract E) (NE : NSEigen ℝ) (hNE : NSContract NE) (p : QP N 0 K ℝ)
    (prm : QPParams ℝ) (hctol : 0 < prm.terminationComplementarityTol) (st : IPState N 0 K ℝ) (hwf : WF st) (ns : NSState N ℝ)
    (r : IPState N 0 K ℝ × QPOutputs ℝ) (h : solve E p prm st = .ok r)
    (q : NSState N ℝ × NullSpaceTermination) (hq : NS.solve NE p ns = .ok q) (hs : q.2 = .success) :
    r.1.v.x = q.1.x ∧ r.2.termination = .satisfiedKktTol ∧ r.2.iterations.length = 1 := by
  obtain ⟨hfe, hmin⟩ := C26_null_space_minimiser NE hNE p ns q hq hs
  have hpd : PosDefOnNull p := by
    by_contra hn
    have := (C28_not_posdef_truthful NE hNE p ns q hq).1.mpr hn
    rw [hs] at this; cases this
  obtain ⟨hK, hr, -⟩ := ns_ok hq
  have hind : IndependentRows p := (hNE.qr.rank p.A hK).mp hr
  obtain ⟨t1, t2, t3, -, t5⟩ := C15_one_iteration E hE p hpd hind prm hctol st hwf r h
  refine ⟨?_, t1, t2⟩
  by_contra hne
  have a1 := hmin r.1.v.x t3.2 hne
  have a2 := t5 q.1.x ⟨fun m => m.elim0, hfe⟩ (Ne.symm hne)
  linarith

/-- **C122** (inequality constraints that do not matter). If the null-space solver's solution of the QP without its inequality
constraints happens to satisfy them, it is an exact solution of the whole QP, with zero multipliers for them. -/
theorem C122_inactive (NE : NSEigen ℝ) (hNE : NSContract NE) (p : QP N M K ℝ) (ns : NSState N ℝ)
    (q : NSState N ℝ × NullSpaceTermination) (hq : NS.solve NE (withoutIneq p) ns = .ok q) (hs : q.2 = .success)
    (hin : ∀ m, 0 ≤ ineqVal p q.1.x m) :
    ∃ y, ExactSolution p ⟨q.1.x, fun m => ineqVal p q.1.x m, y, fun _ => 0⟩ := by
  obtain ⟨hfe, hmin⟩ := C26_null_space_minimiser NE hNE _ ns q hq hs
  have hpd : PosDefOnNull (withoutIneq p) := by
    by_contra hn
    have := (C28_not_posdef_truthful NE hNE _ ns q hq).1.mpr hn
    rw [hs] at this; cases this
  obtain ⟨hK, hr, -⟩ := ns_ok hq
  have hind : IndependentRows (withoutIneq p) := (hNE.qr.rank p.A hK).mp hr
  obtain ⟨u, hu⟩ : ∃ u : Red N K → ℝ, (kktMatrix (withoutIneq p)).mulVec u = Sum.elim (fun i => - p.c i) (fun k => - p.b k) :=
    ⟨(kktMatrix (withoutIneq p))⁻¹.mulVec _, by
      rw [Matrix.mulVec_mulVec, Matrix.mul_nonsing_inv _ (kktMatrix_nonsing _ hpd hind), Matrix.one_mulVec]⟩
  have hu1 : ∀ i, (∑ j, Gsym p i j * u (.inl j)) + ∑ k, p.A k i * u (.inr k) = - p.c i := fun i => by
    have := congrFun hu (.inl i)
    simpa [Matrix.mulVec, dotProduct, Fintype.sum_sum_type, kktMatrix, withoutIneq, Gsym] using this
  have hu2 : ∀ k, (∑ j, p.A k j * u (.inl j)) = - p.b k := fun k => by
    have := congrFun hu (.inr k)
    simpa [Matrix.mulVec, dotProduct, Fintype.sum_sum_type, kktMatrix, withoutIneq] using this
  set v : Blocks N 0 K ℝ := ⟨fun i => u (.inl i), Fin.elim0, fun k => - u (.inr k), Fin.elim0⟩ with hv
  have hgr : ∀ i, gradLagrangian (withoutIneq p) v i = 0 := fun i => by
    unfold gradLagrangian
    have e : ∑ k, p.A k i * (- u (.inr k)) = - ∑ k, p.A k i * u (.inr k) := by
      rw [← Finset.sum_neg_distrib]; exact Finset.sum_congr rfl fun k _ => by ring
    have := hu1 i
    show (∑ j, Gsym p i j * u (.inl j)) + p.c i - (∑ k, p.A k i * (- u (.inr k))) - _ = 0
    rw [e, Finset.univ_eq_empty (α := Fin 0), Finset.sum_empty]
    linarith
  have hve : ∀ k, eqVal (withoutIneq p) v.x k = 0 := fun k => by
    unfold eqVal
    show (∑ j, p.A k j * u (.inl j)) + p.b k = 0
    rw [hu2]; ring
  have hx : v.x = q.1.x := by
    by_contra hne
    have a1 := hmin v.x hve hne
    have hexp := objective_expand (withoutIneq p) v.x q.1.x
    have hid : ∑ i, ((∑ j, Gsym (withoutIneq p) i j * v.x j) + (withoutIneq p).c i) * (q.1.x i - v.x i) = 0 := by
      have e1 : ∀ i, ((∑ j, Gsym (withoutIneq p) i j * v.x j) + (withoutIneq p).c i) = ∑ k, p.A k i * v.y k := fun i => by
        have := hgr i
        unfold gradLagrangian at this
        rw [Finset.univ_eq_empty (α := Fin 0), Finset.sum_empty] at this
        have e : ∑ k, (withoutIneq p).A k i * v.y k = ∑ k, p.A k i * v.y k := rfl
        linarith
      have e2 : ∑ i, (∑ k, p.A k i * v.y k) * (q.1.x i - v.x i)
          = ∑ k, v.y k * (eqVal (withoutIneq p) q.1.x k - eqVal (withoutIneq p) v.x k) := by
        simp only [Finset.sum_mul]
        rw [Finset.sum_comm]
        refine Finset.sum_congr rfl fun k _ => ?_
        have : eqVal (withoutIneq p) q.1.x k - eqVal (withoutIneq p) v.x k = ∑ i, p.A k i * (q.1.x i - v.x i) := by
          unfold eqVal
          rw [add_sub_add_right_eq_sub, ← Finset.sum_sub_distrib]
          exact Finset.sum_congr rfl fun i _ => by show p.A k i * _ - p.A k i * _ = _; ring
        rw [this, Finset.mul_sum]
        exact Finset.sum_congr rfl fun i _ => by ring
      rw [Finset.sum_congr rfl fun i _ => by rw [e1 i], e2]
      exact Finset.sum_eq_zero fun k _ => by rw [hfe, hve]; ring
    rw [hid] at hexp
    have hpos := hpd (q.1.x - v.x) (fun e => hne (by rw [sub_eq_zero] at e; exact e.symm)) (fun k => by
      have h1 := hfe k
      have h2 := hve k
      unfold eqVal at h1 h2
      have : ∑ j, (withoutIneq p).A k j * (q.1.x - v.x) j
          = (∑ j, (withoutIneq p).A k j * q.1.x j) - ∑ j, (withoutIneq p).A k j * v.x j := by
        rw [← Finset.sum_sub_distrib]
        exact Finset.sum_congr rfl fun j _ => by rw [Pi.sub_apply]; ring
      rw [this]; linarith)
    linarith
  refine ⟨v.y, ⟨fun i => ?_, fun k => hfe k, fun m => rfl, hin, fun m => le_rfl, fun m => .inr rfl⟩⟩
  have := hgr i
  rw [← hx]
  unfold gradLagrangian at this ⊢
  rw [Finset.univ_eq_empty (α := Fin 0), Finset.sum_empty] at this
  have z0 : (∑ m, if (p.con m).var = i then (p.con m).a * (0 : ℝ) else 0) = 0 :=
    Finset.sum_eq_zero fun m _ => by split <;> ring
  show (∑ j, Gsym p i j * v.x j) + p.c i - (∑ k, p.A k i * v.y k) - (∑ m, if (p.con m).var = i then (p.con m).a * (0 : ℝ) else 0) = 0
  rw [z0]
  exact this

/-- **C122** (which solver copes). With Eigen's factorisations in exact arithmetic, on a QP with at least one equality constraint,
no inequality constraints, independent rows and a positive semidefinite `G`: the null-space solver finds the minimiser exactly when
`G` is positive definite along the constraints; then the interior point solver with the naive guess returns exactly when `G` is
positive definite in every direction, and throws the factorisation error otherwise. -/
theorem C122_which_returns (p : QP N 0 K ℝ) (hK : 0 < K) (hA : IndependentRows p) (hP : PSDG p) (dd : ℝ) (prm : QPParams ℝ)
    (hprm : checkParams prm = .ok ()) (hg : prm.initialGuessMethod = .naive) (st : IPState N 0 K ℝ) (hwf : WF st)
    (ns : NSState N ℝ) :
    ((∃ q, NS.solve (QR.eigenNS 0 0 dd) p ns = .ok q ∧ q.2 = .success) ↔ PosDefOnNull p) ∧
    (PosDefOnNull p → ((∃ r, solve (LDLT.eigen N K 0) p prm st = .ok r) ↔ PosDefG p) ∧
      (¬ PosDefG p → ∃ st', solve (LDLT.eigen N K 0) p prm st = .error (.failedFactorization, st'))) := by
  constructor
  · obtain ⟨-, q, hq⟩ := (C27_needs_independent_rows _ (C113_contract dd).qr p ns).2.2.1 hK hA
    have ht := (C28_not_posdef_truthful _ (C113_contract dd) p ns q hq).1
    constructor
    · rintro ⟨q', hq', hs⟩
      rw [hq] at hq'
      cases hq'
      by_contra hn
      rw [ht.mpr hn] at hs
      cases hs
    · intro hpd
      refine ⟨q, hq, ?_⟩
      cases hc : q.2 with
      | success => rfl
      | notPositiveDefinite => exact absurd hpd (ht.mp hc)
  · intro hpd
    have hR : Regular p := hpd.regular hA
    have hpin : Pinned p ↔ PosDefG p := ⟨fun hp d hd => hp d hd fun m => m.elim0, fun hp d hd _ => hp d hd⟩
    have := C111_solve p hP hR (fun m => m.elim0) prm hprm st hwf (Or.inl hg)
    rw [hpin] at this
    exact this

end MiniOpt.Props
