import Verif.Props.BoundedConvergence
import Verif.Props.GlobalExamples
import Verif.Props.FirstOrderExamples

/-!
# Runs that meet the hypotheses of C128
-/

set_option autoImplicit false

namespace MiniOpt.Props

open MiniOpt MiniOpt.Spec MiniOpt.NLS MiniOpt.DemoReal

variable {n D : Nat}

/-- The derivative tolerance has no influence on the QP of the first iteration. -/
theorem first_same (env : Env n D ℝ) (prm : NLSParams ℝ) (x0 : Fin n → ℝ) (o : env.Obj) (t : ℝ)
    (o1 : env.Obj) (out1 : NLSOutputs ℝ) (calls1 : List (NLSIteration ℝ))
    (h1 : solve env prm x0 o = .ok (o1, out1, calls1)) (hne1 : out1.iterations ≠ [])
    (o2 : env.Obj) (out2 : NLSOutputs ℝ) (calls2 : List (NLSIteration ℝ))
    (h2 : solve env { prm with absoluteFirstDerivativeTol := t } x0 o = .ok (o2, out2, calls2)) (hne2 : out2.iterations ≠ [])
    (b1 b2 : env.Obj) (hb1 : After env prm x0 o 1 b1)
    (hb2 : After env { prm with absoluteFirstDerivativeTol := t } x0 o 1 b2) :
    b1.qp = b2.qp ∧ b1.solver = b2.solver := by
  obtain ⟨it1, hit1⟩ := first_of hne1
  obtain ⟨it2, hit2⟩ := first_of hne2
  obtain ⟨S1, T1, W1, v1⟩ := solve_view h1
  obtain ⟨l1, i1, p1⟩ := view_info v1 hit1
  obtain ⟨S2, T2, W2, v2⟩ := solve_view h2
  obtain ⟨l2, i2, p2⟩ := view_info v2 hit2
  have es : (S1 0).obj = (S2 0).obj ∧ (S1 0).lambda = (S2 0).lambda := by
    rw [v1.start, v2.start]; exact ⟨rfl, rfl⟩
  have hl1 := p1.lin
  rw [es.1, es.2, p2.lin] at hl1
  injection hl1 with hl1
  injection hl1 with hq hpre
  obtain ⟨sol1, d1, s1⟩ := p1.dir
  obtain ⟨sol2, d2, s2⟩ := p2.dir
  rw [es.1, ← hq] at d1
  have d2' : stepDirection env prm { (S2 0).obj with qp := (W2 0).qp }
      = .ok ({ (S2 0).obj with qp := (W2 0).qp, dx := (W2 0).dx, solver := sol2 }, (W2 0).out) := d2
  rw [d1] at d2'
  injection d2' with d2'
  injection d2' with e1 e2
  have hsol : sol1 = sol2 := congrArg Obj.solver e1
  rw [(v1.after 1 (by omega) b1).mp hb1, (v2.after 1 (by omega) b2).mp hb2]
  exact ⟨by rw [p1.qp, p2.qp, hq], by rw [s1, s2, hsol]⟩

/-- The costs `√(x₀² + 1)` and `x₁ - 1`, with `x₀ ≥ 1/2` and `x₁ ≤ 4`. -/
noncomputable def boxEnv : Env 2 2 ℝ := mkEnv ⟨[bowl, cost3], [⟨0, 1, -1 / 2⟩, ⟨1, -1, 4⟩], []⟩

theorem box_ok : WellPosed boxEnv.p 2 := by
  refine mk_wellPosed _ ?_ ?_
  · intro r hr
    have hr' : r ∈ [bowl, cost3] := by simpa [boxEnv, mkEnv] using hr
    rcases List.mem_cons.mp hr' with rfl | hr'
    · exact ⟨_, _, _, rfl⟩
    · rcases List.mem_singleton.mp hr' with rfl; exact ⟨_, _, _, rfl⟩
  intro c hc
  have hc' : c ∈ [(⟨0, 1, -1 / 2⟩ : Ineq ℝ), ⟨1, -1, 4⟩] := hc
  rcases List.mem_cons.mp hc' with rfl | hc'
  · simp
  · rcases List.mem_singleton.mp hc' with rfl; simp

theorem box_feasible : ∀ c ∈ boxEnv.p.ineq, 0 ≤ boundAt c (fun _ : Fin 2 => (2 : ℝ)) := by
  intro c hc
  have hc' : c ∈ [(⟨0, 1, -1 / 2⟩ : Ineq ℝ), ⟨1, -1, 4⟩] := hc
  rcases List.mem_cons.mp hc' with rfl | hc'
  · norm_num [boundAt]
  · rcases List.mem_singleton.mp hc' with rfl; norm_num [boundAt]

theorem box_smooth (S : (Fin 2 → ℝ) → Prop) : Smooth boxEnv.p S 1 :=
  ⟨one_pos, fun x hx d t h0 h1 => (bowl_smooth S).upper x hx d t h0 h1⟩

/-- Damping, one iteration, and a tolerance. -/
noncomputable def boxPrm (t : ℝ) : NLSParams ℝ := { dampedPrm with maxIterations := 1, absoluteFirstDerivativeTol := t }

theorem boxPrm_valid (t : ℝ) (ht : 0 ≤ t) : NLSParamsValid (boxPrm t) :=
  { dampedPrm_valid with absoluteFirstDerivativeTol := ht, maxIterations := by simp [boxPrm] }

/-- C128: a problem with bounds. -/
example : ∃ (t : ℝ) (o' : boxEnv.Obj) (out : NLSOutputs ℝ) (calls : List (NLSIteration ℝ)), 0 < t ∧
    solve boxEnv (boxPrm t) (fun _ => 2) (mkObj _) = .ok (o', out, calls) ∧ out.iterations ≠ [] ∧
    boxEnv.p.ineq ≠ [] ∧ out.termination ≠ .maxLambda ∧
    ∀ it ∈ out.iterations, it.stepResult = .success ∨ it.stepResult = .firstOrderSatisfied := by
  have run : ∀ t : ℝ, 0 ≤ t → ∃ o' out calls,
      solve boxEnv (boxPrm t) (fun _ => 2) (mkObj _) = .ok (o', out, calls) ∧ out.iterations ≠ [] := by
    intro t ht
    refine ip_run _ box_ok (by simp [boxEnv, mkEnv]) ?_ _ (boxPrm_valid t ht)
      (by simp [boxPrm, dampedPrm, NLSParams.default]) (by simp [boxPrm]) _
    intro c hc
    have hc' : c ∈ [(⟨0, 1, -1 / 2⟩ : Ineq ℝ), ⟨1, -1, 4⟩] := hc
    rcases List.mem_cons.mp hc' with rfl | hc'
    · norm_num
    · rcases List.mem_singleton.mp hc' with rfl; norm_num
  obtain ⟨o1, out1, calls1, h1, hne1⟩ := run 0 le_rfl
  obtain ⟨it1, hit1⟩ := first_of hne1
  have hmem1 := List.mem_of_getElem? hit1
  have hlen1 := lt_of_getElem? hit1
  obtain ⟨b1, hb1, -⟩ := (C38_after _ _ _ _ _ _ _ h1).1 1 (by omega)
  obtain ⟨q, hq⟩ := (C45_which_solver _ _ _ _ _ _ _ h1 it1 hmem1).2 (fun hc => hc.2 rfl)
  obtain ⟨s1, hs1⟩ := ip_solver _ _ _ _ _ _ _ h1 0 it1 hit1 b1 hb1 q hq
  obtain ⟨hcon, -⟩ := ip_after _ _ _ _ _ _ _ h1 0 it1 hit1 b1 hb1 q hq s1 hs1
  set t : ℝ := 2 * |missed (b1.qp.typed hcon) s1.v| + 1 with ht
  have ht0 : 0 < t := by positivity
  obtain ⟨o2, out2, calls2, h2, hne2⟩ := run t ht0.le
  have hgap : ∀ k, k < out2.iterations.length → ∀ b, After boxEnv (boxPrm t) (fun _ => 2) (mkObj _) (k + 1) b →
      ∀ (s' : IPState 2 boxEnv.p.M boxEnv.p.K ℝ) hcon, b.solver = .ip s' →
        missed (b.qp.typed hcon) s'.v ≤ (boxPrm t).absoluteFirstDerivativeTol / 2 := by
    intro k hk b hb s' hcon' hs'
    have hle : (out2.iterations.length : Int) ≤ 1 := by
      obtain ⟨S, T, W, v⟩ := solve_view h2
      exact v.le
    obtain rfl : k = 0 := by omega
    obtain ⟨e1, e2⟩ := first_same boxEnv (boxPrm 0) (fun _ => 2) (mkObj _) t o1 out1 calls1 h1 hne1 o2 out2 calls2 h2 hne2 b1 b hb1 hb
    rw [← e2, hs1] at hs'
    injection hs' with hs'
    subst hs'
    have : missed (b.qp.typed hcon') s1.v = missed (b1.qp.typed hcon) s1.v := by
      congr 1
      generalize b.qp = u at *
      subst e1
      rfl
    rw [this]
    show _ ≤ t / 2
    have := le_abs_self (missed (b1.qp.typed hcon) s1.v)
    linarith
  have hcv : Curved boxEnv.p (Below boxEnv.p (fun _ => 2)) (boxPrm t).minLambda (1 / 2) :=
    C96_damped _ _ _ (by norm_num : (0 : ℝ) < 1 / 2)
  have hpos : 0 < shortestStep (boxPrm t) 1 (2 / 3 * (1 / 2)) :=
    shortestStep_pos one_pos (by norm_num) (boxPrm_valid t ht0.le).armijoSearchTau.1
  obtain ⟨S, hS⟩ := exists_nat_gt (10 ^ 4 * costAt boxEnv.p (fun _ : Fin 2 => (2 : ℝ))
    / (shortestStep (boxPrm t) 1 (2 / 3 * (1 / 2)) * t))
  rw [div_lt_iff₀ (mul_pos hpos ht0)] at hS
  obtain ⟨-, r2, r3⟩ := C128_iteration_bound boxEnv rfl box_ok rfl ⟨_, box_feasible⟩ (boxPrm t) _
    (fun c hc => le_trans (by norm_num) (box_feasible c hc)) _ o2 out2 calls2 h2 1 (1 / 2) (box_smooth _) hcv ht0 hgap S hS
  refine ⟨t, o2, out2, calls2, ht0, h2, hne2, by simp [boxEnv, mkEnv], ?_, ?_⟩
  · refine r3 ?_ ?_
    · simp only [boxPrm, dampedPrm, NLSParams.default, real_lit]; norm_num
    · simp only [boxPrm, dampedPrm, NLSParams.default, real_lit]; norm_num
  · refine (r2 ?_).2.1
    simp only [stepRatio, safeStep, boxPrm, dampedPrm, NLSParams.default]
    show (51 / 100 : ℝ) ^ 2 ≤ _
    norm_num

/-- C128: without constraints, and a linear solver that is exact, the hypothesis about the QPs holds with the default tolerance. -/
example : ∃ (o' : bowlEnv.Obj) (out : NLSOutputs ℝ) (calls : List (NLSIteration ℝ)),
    solve bowlEnv dampedPrm (fun i => if i = 0 then 2 else 5) (mkObj _) = .ok (o', out, calls) ∧ out.iterations ≠ [] ∧
    ∀ k, k < out.iterations.length → ∀ b, After bowlEnv dampedPrm (fun i => if i = 0 then 2 else 5) (mkObj _) (k + 1) b →
      ∀ (s' : IPState 2 bowlEnv.p.M bowlEnv.p.K ℝ) hcon, b.solver = .ip s' →
        missed (b.qp.typed hcon) s'.v ≤ dampedPrm.absoluteFirstDerivativeTol / 2 := by
  obtain ⟨o', out, calls, h, hne⟩ := ip_run _ bowl_ok (by simp [bowlEnv, mkEnv]) (fun c hc => by cases hc)
    dampedPrm dampedPrm_valid (by simp [dampedPrm, NLSParams.default]) (by simp [dampedPrm, NLSParams.default])
    (fun i => if i = 0 then 2 else 5)
  have hcv : Curved bowlEnv.p (Below bowlEnv.p (fun i => if i = 0 then 2 else 5)) dampedPrm.minLambda (1 / 2) :=
    C96_damped _ _ _ (by norm_num : (0 : ℝ) < 1 / 2)
  refine ⟨o', out, calls, h, hne, fun k hk b hb s' hcon hs => ?_⟩
  obtain ⟨it, hit⟩ : ∃ s, out.iterations[k]? = some s := ⟨_, List.getElem?_eq_getElem hk⟩
  obtain ⟨a, ha, -⟩ := (C38_after _ _ _ _ _ _ _ h).1 k hk.le
  have hca := curved_at bowlEnv bowl_ok.consistent rfl _ _ _ o' out calls h _ hcv k it hit a ha
  rw [C128_exact bowlEnv exactEigen_contract bowl_ok rfl rfl _ _ _ o' out calls h k it hit a b ha hb _ (by norm_num) hca s' hs hcon]
  simp only [dampedPrm, NLSParams.default, real_lit]; norm_num

end MiniOpt.Props
