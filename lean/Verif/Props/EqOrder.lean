import Verif.Props.Flip
import Verif.Props.EqTotal
import Verif.Props.NLSExamples
import Verif.Lemmas.DemoHill

/-!
# C130: the order in which costs, bounds and equality constraints are listed
-/

set_option autoImplicit false

namespace MiniOpt.Props

open MiniOpt MiniOpt.Spec MiniOpt.NLS

variable {n D : Nat}

theorem same_residual_self (r : Residual ℝ) : SameResidual D (fun y : Fin n → ℝ => y) (fun _ => LinearEquiv.refl ℝ _) r r :=
  ⟨fun _ => rfl, fun _ _ => rfl⟩

theorem same_residuals_perm {l l' : List (Residual ℝ)} (h : l.Perm l') :
    SameResiduals D (fun y : Fin n → ℝ => y) (fun _ => LinearEquiv.refl ℝ _) l l' :=
  ⟨l, List.forall₂_same.mpr fun r _ => same_residual_self r, h⟩

theorem same_problem_perm {env env' : Env n D ℝ} (hc : env.p.costs.Perm env'.p.costs) (he : env.p.eqs.Perm env'.p.eqs)
    (hR : env'.retraction = env.retraction) (hcb : SameCallback env.callback env'.callback) :
    SameProblem env env' (fun y => y) (fun _ => LinearEquiv.refl ℝ _) := by
  refine ⟨same_residuals_perm hc, same_residuals_perm he, ?_, hcb⟩
  intro y e a x z hx hz
  have hx' : retract env y e a = .ok x := hx
  clear hx
  unfold retract at hx' hz
  rw [hR] at hz
  cases hret : env.retraction with
  | none =>
    rw [hret] at hx' hz
    rw [hx'] at hz
    cases hz
    rfl
  | some R =>
    rw [hret] at hx' hz
    dsimp only at hx' hz
    split_ifs at hx' hz
    cases hx'; cases hz
    rfl

theorem perm_wellPosed {p p' : Problem D ℝ} (hp : WellPosed p n) (hc : p.costs.Perm p'.costs) (hi : p.ineq.Perm p'.ineq)
    (he : p.eqs.Perm p'.eqs) : WellPosed p' n := by
  have hm : ∀ r, r ∈ p'.costs ++ p'.eqs → r ∈ p.costs ++ p.eqs := fun r hr => (hc.append he).mem_iff.mpr hr
  exact ⟨fun r hr => hp.idx r (hm r hr), fun r hr => hp.idxD r (hm r hr), fun r hr => hp.distinct r (hm r hr),
    fun r hr => hp.consistent r (hm r hr), fun c hc' => hp.ineq c (hi.mem_iff.mpr hc')⟩

theorem flip_none : flip (Equiv.refl (Fin D)) (fun _ => false) = LinearEquiv.refl ℝ (Fin D → ℝ) := by
  ext e i
  show sgn false * e i = e i
  unfold sgn
  simp

theorem flipMap_none : flipMap (Equiv.refl (Fin D)) (fun _ => false) (fun _ => 0) = fun y : Fin D → ℝ => y := by
  funext y i
  show sgn false * y i + 0 = y i
  unfold sgn
  simp

theorem flippedBound_none {c : Ineq ℝ} : flippedBound (Equiv.refl (Fin D)) (fun _ => false) (fun _ => 0) c = c := by
  unfold flippedBound
  split_ifs with h
  · obtain ⟨v, a, b⟩ := c
    have h' : 0 ≤ v := h.1
    simp [sgn, h']
  · rfl

/-- **C130** (no bounds). Two problems without bounds whose costs and equality constraints are the same, listed in different orders:
the two solves end at the same point for the same reason, and log the same numbers. -/
theorem C130_no_bounds (env env' : Env n D ℝ) (hc : env.p.costs.Perm env'.p.costs) (he : env.p.eqs.Perm env'.p.eqs)
    (hi : env.p.ineq = []) (hi' : env'.p.ineq = []) (hR : env'.retraction = env.retraction)
    (hcb : SameCallback env.callback env'.callback)
    (hE : LDLTContract env.E) (hE' : LDLTContract env'.E) (hN : NSContract env.NE) (hN' : NSContract env'.NE)
    (hp : WellPosed env.p n) (prm : NLSParams ℝ) (x0 : Fin n → ℝ) (o o1 : env.Obj) (o' o1' : env'.Obj) (out out' : NLSOutputs ℝ)
    (calls calls' : List (NLSIteration ℝ)) (h : solve env prm x0 o = .ok (o1, out, calls))
    (h' : solve env' prm x0 o' = .ok (o1', out', calls'))
    (hreg : env.p.eqs = [] → ∀ k it a, out.iterations[k]? = some it → After env prm x0 o k a →
      0 < it.lambda ∨ RegularAt env.p a.vars) :
    o1'.vars = o1.vars ∧ out'.termination = out.termination ∧
    out'.iterations.map withoutQP = out.iterations.map withoutQP ∧ calls'.map withoutQP = calls.map withoutQP := by
  obtain ⟨q1, q2⟩ := C101_coordinates env env' _ _ (same_problem_perm hc he hR hcb) hE hE' hN hN' hp
    (perm_wellPosed hp hc (by rw [hi, hi']) he) hi hi' prm x0 o o1 o' o1' out out' calls calls' h h' hreg (.inl fun _ _ => rfl)
  exact ⟨q1.symm, q2⟩

/-- **C130** (with bounds). Two problems with at least one bound whose costs, bounds and equality constraints are the same, listed in
different orders: the two solves end at the same point for the same reason, and log the same numbers, including everything the QP
solver reports. -/
theorem C130_bounds (env env' : Env D D ℝ) (hc : env.p.costs.Perm env'.p.costs) (hi : env.p.ineq.Perm env'.p.ineq)
    (he : env.p.eqs.Perm env'.p.eqs) (hne : env.p.ineq ≠ []) (hR : env'.retraction = env.retraction)
    (hcb : SameCallback env.callback env'.callback)
    (hE : LDLTContract env.E) (hE' : LDLTContract env'.E) (hp : WellPosed env.p D) (hbox : BoundsConsistent env.p D)
    (prm : NLSParams ℝ) (x0 : Fin D → ℝ) (o o1 : env.Obj) (o' o1' : env'.Obj) (out out' : NLSOutputs ℝ)
    (calls calls' : List (NLSIteration ℝ)) (h : solve env prm x0 o = .ok (o1, out, calls))
    (h' : solve env' prm x0 o' = .ok (o1', out', calls'))
    (hreg : ∀ k it a, out.iterations[k]? = some it → After env prm x0 o k a →
      (0 < it.lambda ∨ RegularAt env.p a.vars) ∧ EqualitiesIndependentAt env.p a.vars) :
    o1'.vars = o1.vars ∧ out'.termination = out.termination ∧
    out'.iterations.map withoutEigenvalues = out.iterations.map withoutEigenvalues ∧
    calls'.map withoutQP = calls.map withoutQP := by
  have hs := same_problem_perm hc he hR hcb
  have e1 : (fun _ : Fin D → ℝ => LinearEquiv.refl ℝ (Fin D → ℝ)) = fun _ => flip (Equiv.refl (Fin D)) (fun _ => false) := by
    rw [flip_none]
  rw [e1, ← flipMap_none] at hs
  have hb : env.p.ineq.map (flippedBound (Equiv.refl (Fin D)) (fun _ => false) (fun _ => 0)) = env.p.ineq := by
    rw [List.map_congr_left fun c _ => flippedBound_none]; simp
  have e2 : flipMap (Equiv.refl (Fin D)) (fun _ => false) (fun _ => 0) x0 = x0 := congrFun flipMap_none x0
  obtain ⟨q1, q2⟩ := C129_flip env env' (Equiv.refl _) (fun _ => false) (fun _ => 0) hs (by rw [hb]; exact hi) hne hE hE' hp
    (perm_wellPosed hp hc hi he) hbox prm x0 o o1 o' o1' out out' calls calls' (by rw [e2]; exact h) h' (by rw [e2]; exact hreg)
  rw [flipMap_none] at q1
  exact ⟨q1.symm, q2⟩

section example_

open MiniOpt.DemoReal

/-- Two costs, the bound `x₁ ≤ 4`, and the equality constraints `x₀ + x₁² = 1` and `x₁ = 1`. -/
noncomputable def twoEqs : Env 2 2 ℝ := mkEnv ⟨[cost1, cost3], [⟨0, 1, 9⟩, ⟨1, -1, 4⟩], [curve, cost3]⟩

/-- The same, everything listed the other way around. -/
noncomputable def twoEqs' : Env 2 2 ℝ := mkEnv ⟨[cost3, cost1], [⟨1, -1, 4⟩, ⟨0, 1, 9⟩], [cost3, curve]⟩

theorem twoEqs_bounds {c : Ineq ℝ} (h : c ∈ twoEqs.p.ineq) : c = ⟨0, 1, 9⟩ ∨ c = ⟨1, -1, 4⟩ := by
  simpa [twoEqs, mkEnv] using h

theorem twoEqs_perm : twoEqs.p.costs.Perm twoEqs'.p.costs ∧ twoEqs.p.ineq.Perm twoEqs'.p.ineq ∧ twoEqs.p.eqs.Perm twoEqs'.p.eqs :=
  ⟨.swap .., .swap .., .swap ..⟩

theorem twoEqs_ok : WellPosed twoEqs.p 2 := by
  refine mk_wellPosed _ ?_ ?_
  · intro r hr
    have hr' : r = cost1 ∨ r = cost3 ∨ r = curve ∨ r = cost3 := by simpa [twoEqs, mkEnv] using hr
    rcases hr' with rfl | rfl | rfl | rfl <;> exact ⟨_, _, _, rfl⟩
  · intro c hc
    rcases twoEqs_bounds hc with rfl | rfl <;> decide

theorem twoEqs_regular (x : Fin 2 → ℝ) : RegularAt twoEqs.p x := by
  intro d hd
  have h1 := hd cost1 (by simp [twoEqs, mkEnv]) (0 : Fin 1)
  have h2 := hd cost3 (by simp [twoEqs, mkEnv]) (0 : Fin 1)
  rw [cost1_slope] at h1
  rw [cost3_slope] at h2
  funext i
  rcases Fin.exists_fin_two.mp ⟨i, rfl⟩ with rfl | rfl
  · exact h1
  · exact h2

theorem curve_slope (x d : Fin 2 → ℝ) : slopeAt curve x d (0 : Fin 1) = d 0 + 2 * x 1 * d 1 := by
  have h0 : ∀ j, jacAt curve x 2 (0 : Fin 1) j = if j = 0 then 1 else 2 * x 1 := fun j => by
    unfold curve
    rw [res2_jac]
  have e : slopeAt curve x d (0 : Fin 1) = ∑ j, jacAt curve x 2 (0 : Fin 1) j * d j := rfl
  rw [e, Fin.sum_univ_two, h0, h0]
  simp

theorem twoEqs_independent (x : Fin 2 → ℝ) : EqualitiesIndependentAt twoEqs.p x := by
  intro v hv
  have hv' : v.length = 2 := hv
  obtain ⟨a, b, rfl⟩ := List.length_eq_two.mp hv'
  have hl : ∀ d : Fin 2 → ℝ, linAt curve x d = fun _ => (x 0 + x 1 ^ 2 - 1) + (d 0 + 2 * x 1 * d 1) := by
    intro d
    funext k
    have hk : k = (0 : Fin 1) := Subsingleton.elim (α := Fin 1) k 0
    rw [hk, ← curve_slope]
    rfl
  have hl3 : ∀ d : Fin 2 → ℝ, linAt cost3 x d = fun _ => (x 1 - 1) + d 1 := by
    intro d
    funext k
    have hk : k = (0 : Fin 1) := Subsingleton.elim (α := Fin 1) k 0
    rw [hk, ← cost3_slope x d]
    rfl
  refine ⟨fun i => if i = 0 then a - (x 0 + x 1 ^ 2 - 1) - 2 * x 1 * (b - (x 1 - 1)) else b - (x 1 - 1), ?_⟩
  have : ∀ d : Fin 2 → ℝ, stackedModel x d twoEqs.p.eqs
    = List.ofFn (linAt curve x d) ++ (List.ofFn (linAt cost3 x d) ++ []) := fun d => rfl
  rw [this, List.append_nil, hl, hl3]
  show [_, _] = _
  simp only [if_true]
  congr 1
  · simp
  · congr 1
    simp

/-- Both solves, with the default parameters, from any point: they return, and give the same result. -/
example (x0 : Fin 2 → ℝ) : ∃ (o1 : twoEqs.Obj) (o1' : twoEqs'.Obj) (out out' : NLSOutputs ℝ) (calls calls' : List (NLSIteration ℝ)),
    solve twoEqs dp x0 (mkObj _) = .ok (o1, out, calls) ∧ solve twoEqs' dp x0 (mkObj _) = .ok (o1', out', calls') ∧
    out.iterations ≠ [] ∧ o1'.vars = o1.vars ∧ out'.termination = out.termination ∧
    out'.iterations.map withoutEigenvalues = out.iterations.map withoutEigenvalues := by
  obtain ⟨hc, hi, he⟩ := twoEqs_perm
  have ha : ∀ c ∈ twoEqs.p.ineq, c.a ≠ 0 := by
    intro c hc
    rcases twoEqs_bounds hc with rfl | rfl <;> norm_num
  obtain ⟨o1, out, calls, h, hne⟩ := ip_run twoEqs.p twoEqs_ok (by simp [twoEqs, mkEnv]) ha dp nls_default_valid dp_penalty
    dp_iterations x0
  obtain ⟨o1', out', calls', h', -⟩ := ip_run twoEqs'.p (perm_wellPosed twoEqs_ok hc hi he) (by simp [twoEqs', mkEnv])
    (fun c hc' => ha c (hi.mem_iff.mpr hc')) dp nls_default_valid dp_penalty dp_iterations x0
  obtain ⟨q1, q2, q3, -⟩ := C130_bounds twoEqs twoEqs' hc hi he (by simp [twoEqs, mkEnv]) rfl trivial
    exactEigen_contract exactEigen_contract twoEqs_ok ⟨fun _ => 0, fun c hc' => by
      rcases twoEqs_bounds hc' with rfl | rfl <;> norm_num [boundAt]⟩ dp x0 _ o1 _ o1' out out' calls calls' h h'
    fun k it a _ _ => ⟨.inr (twoEqs_regular _), twoEqs_independent _⟩
  exact ⟨o1, o1', out, out', calls, calls', h, h', hne, q1, q2, q3⟩

/-- `twoEqs` without its bounds, and the same with the constraints exchanged. -/
noncomputable def twoFree : Env 2 2 ℝ := mkEnv ⟨[cost1, cost3], [], [curve, cost3]⟩
noncomputable def twoFree' : Env 2 2 ℝ := mkEnv ⟨[cost1, cost3], [], [cost3, curve]⟩

theorem twoFree_ok : WellPosed twoFree.p 2 := by
  refine mk_wellPosed _ ?_ ?_
  · intro r hr
    have hr' : r = cost1 ∨ r = cost3 ∨ r = curve ∨ r = cost3 := by simpa [twoFree, mkEnv] using hr
    rcases hr' with rfl | rfl | rfl | rfl <;> exact ⟨_, _, _, rfl⟩
  · intro c hc
    simp [twoFree, mkEnv] at hc

/-- The hypotheses of C131 are met, and the run returns. -/
theorem twoFree_run (x0 : Fin 2 → ℝ) : ∃ o' out calls, solve twoFree dp x0 (mkObj _) = .ok (o', out, calls) ∧
    out.termination ≠ .qpIndefinite := by
  rcases C131_regular_equalities twoFree twoFree_ok (.inl rfl) rfl (by decide) exactNS_contract
    (fun x d hd => twoEqs_regular x d fun r hr => hd r (List.mem_append_left _ hr)) (fun x => twoEqs_independent x) dp nls_default_valid
    dp_penalty x0 (mkObj _) with h | ⟨_, _, hu⟩
  · exact h
  · exact absurd hu (mkEnv_quiet (by never_throws))

theorem twoFree_run' (x0 : Fin 2 → ℝ) : ∃ o' out calls, solve twoFree' dp x0 (mkObj _) = .ok (o', out, calls) ∧
    out.termination ≠ .qpIndefinite := by
  have hperm : twoFree.p.eqs.Perm twoFree'.p.eqs := .swap ..
  rcases C131_regular_equalities twoFree' (perm_wellPosed twoFree_ok (.refl _) (.refl _) hperm) (.inl rfl) rfl (by decide)
    exactNS_contract (fun x d hd => twoEqs_regular x d fun r hr => hd r (List.mem_append_left _ hr)) (fun x v hv => by
      obtain ⟨a, b, rfl⟩ := List.length_eq_two.mp (show v.length = 2 from hv)
      obtain ⟨d, hd⟩ := twoEqs_independent x [b, a] rfl
      have e1 : stackedModel x d twoEqs.p.eqs = [linAt curve x d (0 : Fin 1), linAt cost3 x d (0 : Fin 1)] := rfl
      have e2 : stackedModel x d twoFree'.p.eqs = [linAt cost3 x d (0 : Fin 1), linAt curve x d (0 : Fin 1)] := rfl
      rw [e1] at hd
      injection hd with h1 h2
      injection h2 with h2
      exact ⟨d, by rw [e2, h1, h2]⟩) dp nls_default_valid dp_penalty x0 (mkObj _) with h | ⟨_, _, hu⟩
  · exact h
  · exact absurd hu (mkEnv_quiet (by never_throws))

/-- Without bounds, the two equality constraints exchanged: both solves return, with the same result. -/
example (x0 : Fin 2 → ℝ) : ∃ (o1 : twoFree.Obj) (o1' : twoFree'.Obj) (out out' : NLSOutputs ℝ) (calls calls' : List (NLSIteration ℝ)),
    solve twoFree dp x0 (mkObj _) = .ok (o1, out, calls) ∧ solve twoFree' dp x0 (mkObj _) = .ok (o1', out', calls') ∧
    o1'.vars = o1.vars ∧ out'.iterations.map withoutQP = out.iterations.map withoutQP := by
  obtain ⟨o1, out, calls, h, -⟩ := twoFree_run x0
  obtain ⟨o1', out', calls', h', -⟩ := twoFree_run' x0
  obtain ⟨q1, -, q3, -⟩ := C130_no_bounds twoFree twoFree' (.refl _) (.swap ..) rfl rfl rfl trivial exactEigen_contract
    exactEigen_contract exactNS_contract exactNS_contract twoFree_ok dp x0 _ o1 _ o1' out out' calls calls' h h'
    fun hn => absurd hn (by simp [twoFree, mkEnv])
  exact ⟨o1, o1', out, out', calls, calls', h, h', q1, q3⟩

end example_

end MiniOpt.Props
