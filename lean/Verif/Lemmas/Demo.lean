import Verif.Lemmas.QPGuess
import Verif.Lemmas.QPNonsing

/-! A concrete QP used to show that hypotheses of the property theorems are met:
minimise `½(x₀² + x₁²) - x₀ - 2x₁` subject to `x₀ + x₁ = 1` and `x₀ ≥ 1/5`. -/

set_option autoImplicit false

namespace MiniOpt

open MiniOpt.Spec MiniOpt.IP

/-- See the module comment. The entry above the diagonal of `G` is junk on purpose. -/
noncomputable def demoQP : QP 2 1 1 ℝ where
  G := !![1, 7; 0, 1]
  c := ![-1, -2]
  A := fun _ => ![1, 1]
  b := ![-1]
  con := fun _ => ⟨0, 1, -1 / 5⟩

theorem demo_posdef : PosDefG demoQP := by
  intro x hx
  have : ∑ i, ∑ j, x i * Gsym demoQP i j * x j = x 0 ^ 2 + x 1 ^ 2 := by
    have h00 : Gsym demoQP 0 0 = 1 := rfl
    have h01 : Gsym demoQP 0 1 = 0 := rfl
    have h10 : Gsym demoQP 1 0 = 0 := rfl
    have h11 : Gsym demoQP 1 1 = 1 := rfl
    simp only [Fin.sum_univ_two, h00, h01, h10, h11]; ring
  rw [this]
  by_contra h
  apply hx
  have h0 : x 0 = 0 := by nlinarith [sq_nonneg (x 0), sq_nonneg (x 1)]
  have h1 : x 1 = 0 := by nlinarith [sq_nonneg (x 0), sq_nonneg (x 1)]
  funext i; fin_cases i <;> assumption

theorem demo_rows : IndependentRows demoQP := by
  intro y h
  have := h 0
  simp [demoQP] at this
  funext k; fin_cases k; exact this

theorem demo_slope (m : Fin 1) : (demoQP.con m).a ≠ 0 := by simp [demoQP]

theorem demo_box : ∃ w, ∀ m, 0 ≤ ineqVal demoQP w m :=
  ⟨fun _ => 1, fun m => by norm_num [ineqVal, demoQP]⟩

/-- A solver object with arbitrary (here constant 13) memory contents. -/
def demoJunk {N M K : Nat} : IPState N M K ℝ :=
  ⟨⟨fun _ => 13, fun _ => 13, fun _ => 13, fun _ => 13⟩, ⟨fun _ => 13, fun _ => 13, fun _ => 13, fun _ => 13⟩,
    fun _ => 13, fun _ _ => 13, fun _ _ => 13, ⟨fun _ => 13, fun _ => 13, fun _ => 13, fun _ => 13⟩,
    ⟨fun _ => 13, fun _ => 13, fun _ => 13, fun _ => 13⟩⟩

theorem setupState_WF {α : Type} [Scalar α] {N M K : Nat} (junk : IPState N M K α) :
    WF (setupState junk) := fun _ _ => rfl

theorem default_valid : checkParams (QPParams.default : QPParams ℝ) = .ok () := by
  rw [checkParams_ok_iff]
  simp only [QPParams.default, real_lit]
  norm_num

/-- With a factorisation that never reports failure, nonzero slopes and valid parameters, `Solve`
returns normally from a built-in guess. -/
theorem solve_returns {N M K : Nat} (E : Eigen N K ℝ) (hE : ∀ H, E.ldltInverse H ≠ none)
    (p : QP N M K ℝ) (ha : ∀ m, (p.con m).a ≠ 0) (prm : QPParams ℝ) (hprm : checkParams prm = .ok ())
    (st : IPState N M K ℝ)
    (hg : prm.initialGuessMethod ≠ .userProvided ∨ ((∀ m, 0 < st.v.s m) ∧ ∀ m, 0 < st.v.z m)) :
    ∃ r, solve E p prm st = .ok r := by
  unfold solve
  rw [hprm]
  dsimp only
  cases h0 : initialGuess E p prm.initialGuessMethod st with
  | error e =>
    rcases initialGuess_error h0 with ⟨_, m, hm⟩ | ⟨_, H, hH⟩
    · exact absurd hm (ha m)
    · exact absurd hH (hE H)
  | ok st0 =>
    dsimp only
    have hpos : (∀ m, 0 < st0.v.s m) ∧ ∀ m, 0 < st0.v.z m := by
      by_cases hu : prm.initialGuessMethod = .userProvided
      · rw [hu] at h0; cases h0
        rcases hg with hg | hg
        · exact absurd hu hg
        · exact hg
      · exact initialGuess_pos hu h0
    have := solveLoop_rule E p prm (fun _ st _ _ => (∀ m, 0 < st.v.s m) ∧ ∀ m, 0 < st.v.z m)
      (fun _ => True) (fun _ => False)
      (by
        rintro n st mu log st2 it hI ⟨⟨st1, h1, rfl⟩, _, _⟩ _
        rw [evaluateKKT_v]
        exact iterate_pos h1 hI.2)
      (fun _ _ _ _ _ _ _ _ _ => trivial) (fun _ _ _ _ => trivial)
      (by
        intro n st mu log e hI he
        rcases iterate_error he with ⟨_, hn⟩ | ⟨m, hm⟩
        · exact hE _ hn
        · exact hm (hI.1 m))
      prm.maxIterations.toNat (evaluateKKT p true st0) (initialMu prm (evaluateKKT p true st0)) []
      (by rw [evaluateKKT_v]; exact hpos)
    cases hr : solveLoop E p prm prm.maxIterations.toNat (evaluateKKT p true st0)
        (initialMu prm (evaluateKKT p true st0)) [] with
    | error e => rw [hr] at this; exact this.elim
    | ok r => exact ⟨r, rfl⟩

theorem exactEigen_total {N K : Nat} (H) : (exactEigen : Eigen N K ℝ).ldltInverse H ≠ none := by
  simp [exactEigen]

theorem demo_returns (prm : QPParams ℝ) (hprm : checkParams prm = .ok ())
    (hg : prm.initialGuessMethod ≠ .userProvided) :
    ∃ r, solve exactEigen demoQP prm (setupState demoJunk) = .ok r :=
  solve_returns _ exactEigen_total _ demo_slope _ hprm _ (Or.inl hg)

end MiniOpt
