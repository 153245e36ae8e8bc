import Verif.Props.EigenLDLTNonlinear
import Verif.Lemmas.DemoReal

/-!
# C111, C112: concrete cases
-/

set_option autoImplicit false

namespace MiniOpt.Props

open MiniOpt MiniOpt.Spec

/-! ## Quadratic programs -/

/-- The demo problem (two variables, an equality constraint, a bound) is solved, with either built-in guess. -/
example (g : InitialGuessMethod) (hg : g = .naive ∨ g = .solveEqualityConstrained) :
    ∃ r, IP.solve (LDLT.eigen 2 1 0) demoQP { (QPParams.default : QPParams ℝ) with initialGuessMethod := g }
      (IP.setupState demoJunk) = .ok r := by
  have hpsd : PSDG demoQP := fun x => by
    by_cases hx : x = 0
    · subst hx; simp
    · exact (demo_posdef x hx).le
  have hv : checkParams { (QPParams.default : QPParams ℝ) with initialGuessMethod := g } = .ok () := default_valid
  rcases hg with rfl | rfl
  · exact (C111_solve demoQP hpsd (demo_posdef.regular demo_rows) demo_slope _ hv _ (setupState_WF _) (Or.inl rfl)).1.mpr
      fun d hd _ => demo_posdef d hd
  · exact (C111_equality_guess demoQP hpsd demo_rows demo_posdef.onNull demo_slope _ hv _ (setupState_WF _) rfl).1.mpr demo_posdef

/-- One variable without cost, fixed by the constraint `x = 1`. -/
noncomputable def fixedQP : QP 1 0 1 ℝ where
  G := fun _ _ => 0
  c := fun _ => 0
  A := fun _ _ => 1
  b := fun _ => -1
  con := fun m => m.elim0

theorem fixed_regular : Regular fixedQP := by
  refine ⟨fun y hy => ?_, fun d _ => ?_, fun d hd hn _ => ?_⟩
  · have := hy 0
    rw [Fin.sum_univ_one] at this
    funext k
    fin_cases k
    simpa [fixedQP] using this
  · simp [Gsym, fixedQP]
  · exfalso
    apply hd
    have := hn 0
    rw [Fin.sum_univ_one] at this
    funext i
    fin_cases i
    simpa [fixedQP] using this

/-- **C111** (a problem with exactly one feasible point). `min 0` subject to `x = 1` is not solved: `FailedFactorization`. -/
theorem C111_fixed : ∃ st', IP.solve (LDLT.eigen 1 1 0) fixedQP QPParams.default (IP.setupState demoJunk)
    = .error (.failedFactorization, st') := by
  refine (C111_solve fixedQP (fun d => ?_) fixed_regular (fun m => m.elim0) _ default_valid _ (setupState_WF _)
    (Or.inl (by simp [QPParams.default]))).2 fun h => ?_
  · simp [Gsym, fixedQP]
  · have := h (fun _ => 1) (fun h => by have := congrFun h 0; simp at this) (fun m => m.elim0)
    simp [Gsym, fixedQP] at this

/-! ## Units

Three variables, costs `½ (x₀ + x₁)² + ½ s x₂²`, no constraints. -/

noncomputable def threeQP (s : ℝ) : QP 3 0 0 ℝ where
  G := !![1, 1, 0; 1, 1, 0; 0, 0, s]
  c := fun _ => 0
  A := fun k => k.elim0
  b := fun k => k.elim0
  con := fun m => m.elim0

theorem three_ok (s : ℝ) (hs : 0 < s) (v : Blocks 3 0 0 ℝ) :
    (LDLT.factorize (reducedMatrix (threeQP s) v) (rowsOf 3 0)).ok = true ↔ 1 < s := by
  have hrows : rowsOf 3 0 = [.inl 0, .inl 1, .inl 2] := rfl
  rw [hrows]
  have habs : ∀ x : ℝ, Scalar.abs x = |x| := fun _ => rfl
  have e : ∀ i j : Fin 3, reducedMatrix (threeQP s) v (.inl i) (.inl j) = !![1, 1, 0; 1, 1, 0; 0, 0, s] i j := by
    intro i j
    simp only [reducedMatrix, Finset.univ_eq_empty, Finset.sum_empty, ite_self, add_zero, Gsym, threeQP]
    fin_cases i <;> fin_cases j <;> rfl
  by_cases h : 1 < s
  · have ho : LDLT.pivotOrder (fun i => Scalar.abs (reducedMatrix (threeQP s) v i i)) 3 [.inl 0, .inl 1, .inl 2]
        = [.inl 2, .inl 1, .inl 0] := by
      simp [LDLT.pivotOrder, LDLT.firstMax, e, habs, abs_of_pos hs, h]
    unfold LDLT.factorize
    dsimp only [List.length]
    rw [ho]
    simp [LDLT.Fact.steps, LDLT.Fact.step, LDLT.Fact.entry, e, habs, abs_of_pos hs, h, hs, real_sum, real_feq]
  · have ho : LDLT.pivotOrder (fun i => Scalar.abs (reducedMatrix (threeQP s) v i i)) 3 [.inl 0, .inl 1, .inl 2]
        = [.inl 0, .inl 1, .inl 2] := by
      simp [LDLT.pivotOrder, LDLT.firstMax, e, habs, abs_of_pos hs, h]
    unfold LDLT.factorize
    dsimp only [List.length]
    rw [ho]
    simp [LDLT.Fact.steps, LDLT.Fact.step, LDLT.Fact.entry, e, habs, abs_of_pos hs, h, hs, real_sum, real_feq]

/-- **C111** (units). Minimising `½ (x₀ + x₁)² + ½ s x₂²`, with infinitely many minimisers for every `s > 0`: `Solve` returns
if and only if `s > 1`, and throws `FailedFactorization` otherwise. Measuring `x₂` in another unit changes `s`. -/
theorem C111_units (s : ℝ) (hs : 0 < s) :
    ((∃ r, IP.solve (LDLT.eigen 3 0 0) (threeQP s) QPParams.default (IP.setupState demoJunk) = .ok r) ↔ 1 < s) ∧
    (s ≤ 1 → ∃ st', IP.solve (LDLT.eigen 3 0 0) (threeQP s) QPParams.default (IP.setupState demoJunk)
      = .error (.failedFactorization, st')) := by
  have h := solve_iff (E := LDLT.eigen 3 0 0) (p := threeQP s) (P := 1 < s) (fun st hwf _ _ => by
    rw [IP.symRed_fillH _ _ hwf, ← three_ok s hs st.v, ← Option.isSome_iff_exists, ← not_iff_not, Bool.not_eq_true,
      Option.isSome_eq_false_iff, Option.isNone_iff_eq_none]
    exact eigen_none _)
    (fun m => m.elim0) _ default_valid (IP.setupState demoJunk) (setupState_WF _) (Or.inl (by simp [QPParams.default]))
  exact ⟨h.1, fun hle => h.2 (not_lt.mpr hle)⟩

/-! ## Nonlinear least squares -/

section
open MiniOpt.DemoReal MiniOpt.NLS

/-- `x₀ - 3` as the only cost, the constraint `x₁ = 1`, and the bound `x₀ ≥ 0`. -/
noncomputable def guarded : Problem 2 ℝ := ⟨[cost1], [⟨0, 1, 0⟩], [cost3]⟩

/-- The same without the bound. -/
noncomputable def unguarded : Problem 2 ℝ := ⟨[cost1], [], [cost3]⟩

/-- The environment of a problem with the factorisation of this file. -/
noncomputable def ldltEnv (p : Problem 2 ℝ) : Env 2 2 ℝ := { mkEnv p with E := LDLT.eigen 2 p.K 0 }

theorem two_ok (p : Problem 2 ℝ) (hc : p.costs = [cost1]) (he : p.eqs = [cost3])
    (hi : ∀ c ∈ p.ineq, 0 ≤ c.var ∧ c.var < 2) : WellPosed p 2 := by
  refine mk_wellPosed _ ?_ ?_
  · intro r hr
    rw [hc, he] at hr
    rcases List.mem_cons.mp hr with rfl | hr
    · exact ⟨_, _, _, rfl⟩
    · rcases List.mem_singleton.mp hr with rfl; exact ⟨_, _, _, rfl⟩
  · intro c h; exact hi c h

theorem slope_cost1 (x d : Fin 2 → ℝ) (k : Fin 1) : slopeAt cost1 x d k = d 0 := by
  have : slopeAt cost1 x d k = ∑ j : Fin 2, jacAt cost1 x 2 k j * d j := rfl
  rw [this]
  unfold cost1
  simp only [res2_jac, Fin.sum_univ_two]
  simp

theorem slope_cost3 (x d : Fin 2 → ℝ) (k : Fin 1) : slopeAt cost3 x d k = d 1 := by
  have : slopeAt cost3 x d k = ∑ j : Fin 2, jacAt cost3 x 2 k j * d j := rfl
  rw [this]
  unfold cost3
  simp only [res2_jac, Fin.sum_univ_two]
  simp

theorem guarded_ok : WellPosed guarded 2 := two_ok _ rfl rfl fun c hc => by
  have hc' : c ∈ [(⟨0, 1, 0⟩ : Ineq ℝ)] := hc
  rcases List.mem_singleton.mp hc' with rfl; norm_num

theorem guarded_quiet : ¬ UserThrows (ldltEnv guarded) := by
  rintro (⟨r, hr, q, hq⟩ | ⟨h, _⟩ | ⟨h, _⟩)
  · have hnt : NeverThrowsP guarded := by never_throws
    have := hnt r hr q
    rcases hq with hq | hq
    · rw [this.1] at hq; cases hq
    · rw [this.2] at hq; cases hq
  · exact h rfl
  · exact h rfl

theorem guarded_rank (x : Fin 2 → ℝ) : FullRank guarded x := by
  intro t
  refine ⟨fun _ => t ⟨0, by decide⟩ - (x 1 - 1), ?_⟩
  have h1 : stackedModel x (fun _ : Fin 2 => t ⟨0, by decide⟩ - (x 1 - 1)) guarded.eqs
      = [valueAt cost3 x (0 : Fin 1) + slopeAt cost3 x (fun _ : Fin 2 => t ⟨0, by decide⟩ - (x 1 - 1)) (0 : Fin 1)] := by
    show List.ofFn _ ++ [] = _
    rw [List.append_nil]
    rfl
  have h2 : List.ofFn t = [t ⟨0, by decide⟩] := rfl
  rw [h1, h2, slope_cost3]
  have h3 : valueAt cost3 x (0 : Fin 1) = x 1 - 1 := res2_value _ _ _ x 0
  rw [h3]; simp

/-- **C112** (a bound makes the solver throw). With the bound `x₀ ≥ 0`, which holds with room to spare at the solution
`(3, 1)`, every start makes `Solve` throw `FailedFactorization` with the default parameters. -/
theorem C112_bound_throws (x0 : Fin 2 → ℝ) : ∃ o', solve (ldltEnv guarded) NLSParams.default x0 (mkObj guarded)
    = .error (.failedFactorization, o') := by
  refine C112_throws (ldltEnv guarded) rfl guarded_ok ?_ (by simp [ldltEnv, guarded, mkEnv]) (by simp [ldltEnv, guarded, mkEnv])
    NLSParams.default nls_default_valid (by simp [NLSParams.default]) (by simp [NLSParams.default]) guarded_quiet
    x0 (guarded_rank x0) ?_ ?_ _
  · intro c hc
    have hc' : c ∈ [(⟨0, 1, 0⟩ : Ineq ℝ)] := hc
    rcases List.mem_singleton.mp hc' with rfl; norm_num
  · intro d hd h
    have h1 : d 1 = 0 := by
      have := h cost3 (by show cost3 ∈ [cost3]; simp) (0 : Fin 1)
      rw [slope_cost3] at this; exact this
    refine ⟨cost1, by show cost1 ∈ [cost1]; simp, (0 : Fin 1), fun h0 => hd ?_⟩
    rw [slope_cost1] at h0
    funext i; fin_cases i
    · exact h0
    · exact h1
  · refine ⟨fun i => if i = 1 then 1 else 0, fun h => ?_, ?_⟩
    · have := congrFun h 1; simp at this
    · rintro ⟨r, hr, k, hk⟩
      have hr' : r ∈ [cost1] := hr
      rcases List.mem_singleton.mp hr' with rfl
      exact hk ((slope_cost1 x0 _ k).trans (by simp))

/-- Without the bound the null-space solver is used, and `Solve` returns. -/
theorem C112_without_bound (x0 : Fin 2 → ℝ) : ∃ r, solve (ldltEnv unguarded) NLSParams.default x0 (mkObj unguarded) = .ok r := by
  have hok : WellPosed unguarded 2 := two_ok _ rfl rfl fun c hc => by cases hc
  rcases C65_nls_exceptions (ldltEnv unguarded) hok (Or.inl rfl) (fun c hc => by cases hc) NLSParams.default nls_default_valid
    (by simp [NLSParams.default]) x0 (mkObj unguarded) with h | ⟨e, h, ht⟩
  · exact h
  · exfalso
    rcases ht with ⟨h1, _⟩ | ⟨_, h2, _⟩ | ⟨_, _, _, hA, hR⟩ | ⟨_, hu'⟩
    rotate_right
    · rcases hu' with ⟨r, hr, q, hq⟩ | ⟨h, _⟩ | ⟨h, _⟩
      · have hnt : NeverThrowsP unguarded := by never_throws
        have := hnt r hr q
        rcases hq with hq | hq
        · rw [this.1] at hq; cases hq
        · rw [this.2] at hq; cases hq
      · exact h rfl
      · exact h rfl
    · exact h1 ⟨rfl, by simp [ldltEnv, unguarded, mkEnv]⟩
    · revert h2; decide
    · apply hR exactNS_contract.qr
      intro y hy
      have hrow : ∀ dx : Fin 2 → ℝ, (∑ j, e.2.qp.A ⟨0, by decide⟩ j * dx j) + e.2.qp.b ⟨0, by decide⟩
          = valueAt cost3 e.2.vars (0 : Fin 1) + dx 1 := by
        intro dx
        have h0 := congrArg List.head? (hA dx)
        have hl : stackedModel e.2.vars dx (ldltEnv unguarded).p.eqs
            = [valueAt cost3 e.2.vars (0 : Fin 1) + slopeAt cost3 e.2.vars dx (0 : Fin 1)] := by
          show List.ofFn _ ++ [] = _
          rw [List.append_nil]
          rfl
        rw [hl, slope_cost3] at h0
        exact Option.some.inj h0
      have h00 := hrow fun _ => 0
      have h10 := hrow fun j => if j = 1 then 1 else 0
      rw [Fin.sum_univ_two] at h00 h10
      simp only [mul_zero, add_zero, zero_add, if_true, mul_one, zero_ne_one, if_false] at h00 h10
      have hA1 : e.2.qp.A (0 : Fin 1) 1 = 1 := by
        have h10' : e.2.qp.A (0 : Fin 1) 1 + e.2.qp.b (0 : Fin 1) = valueAt cost3 e.2.vars (0 : Fin 1) + 1 := h10
        have h00' : e.2.qp.b (0 : Fin 1) = valueAt cost3 e.2.vars (0 : Fin 1) := h00
        linarith
      have hy1 : ∑ k : Fin 1, e.2.qp.A k 1 * y k = 0 := hy 1
      rw [Fin.sum_univ_one, hA1, one_mul] at hy1
      funext k
      have : k = (0 : Fin 1) := Subsingleton.elim (α := Fin 1) k 0
      rw [this]; exact hy1

/-- With a little damping from the start on, the problem with the bound is solved as well. -/
theorem C112_damped (x0 : Fin 2 → ℝ) : ∃ r, solve (ldltEnv guarded)
    { (NLSParams.default : NLSParams ℝ) with minLambda := 1 / 1000, lambdaInitial := 1 / 1000 } x0 (mkObj guarded) = .ok r := by
  refine C112_returns (ldltEnv guarded) rfl guarded_ok (Or.inl rfl) ?_ (Or.inr (by simp [ldltEnv, guarded, mkEnv])) _ ?_
    (by simp [NLSParams.default]) guarded_quiet guarded_rank (Or.inl (by norm_num)) x0 _
  · intro c hc
    have hc' : c ∈ [(⟨0, 1, 0⟩ : Ineq ℝ)] := hc
    rcases List.mem_singleton.mp hc' with rfl; norm_num
  · constructor <;> simp only [NLSParams.default, real_lit] <;> norm_num

end

end MiniOpt.Props
