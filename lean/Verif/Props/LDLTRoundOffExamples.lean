import Verif.Props.LDLTRoundOff
import Verif.Props.DoubleKKT

/-!
# C117: cases
-/

set_option autoImplicit false

namespace MiniOpt.Props

open MiniOpt MiniOpt.Spec MiniOpt.F64 MiniOpt.DemoF64

/-- `1 / DBL_MAX`, the value Eigen uses. -/
def eigenCutoff : D64 := d (1 / 2 ^ 1024)

/-- `[[3, 1], [1, 2]]`: one third is not a double. -/
def thirdH : Red 2 0 → Red 2 0 → D64
  | .inl 0, .inl 0 => d 3
  | .inl 1, .inl 1 => d 2
  | _, _ => d 1

/-- A convex problem with one equality constraint, `½ (2^-60 x₀² + x₁²)` subject to `x₀ + x₁ = 0`. -/
def tinyQP : QP 2 0 1 D64 where
  G i j := if i = j then (if i = 0 then d (1 / 2 ^ 60) else 1) else 0
  c := fun _ => d 1
  A := fun _ _ => 1
  b := fun _ => 0
  con := fun m => m.elim0

def tinyState : IPState 2 0 1 D64 := ⟨.zero, .zero, fun _ => 0, fun _ _ => 0, fun _ _ => 0, .zero, .zero⟩

/-- The matrix of `tinyQP`. -/
def tinyH : Red 2 1 → Red 2 1 → D64 := IP.symRed (IP.fillH tinyQP false tinyState)

theorem of_option {α : Type} {o : Option α} {P : α → Prop} [DecidablePred P] (h : o.any (fun x => decide (P x)) = true) :
    ∃ x, o = some x ∧ P x := by
  cases o with
  | none => simp at h
  | some x => exact ⟨x, rfl, of_decide_eq_true h⟩

/-- A matrix whose factorisation and inverse are rounded meets the hypotheses of C117. -/
theorem C117_demo : AddsUp seqL ∧ 0 ≤ eigenCutoff ∧ (∀ i j, thirdH i j = thirdH j i) ∧
    (∃ X, (LDLT.eigen 2 0 eigenCutoff).ldltInverse thirdH = some X ∧ (∀ i j, Dbl.Finite (X i j)) ∧ (X (.inl 0) (.inl 0)).toRat ≠ 2 / 5) ∧
    (∀ i, Dbl.Finite ((LDLT.factorize thirdH (rowsOf 2 0)).D i)) ∧
    (∀ i, eigenCutoff < Scalar.abs ((LDLT.factorize thirdH (rowsOf 2 0)).D i)) ∧
    (∀ i, 0 < ((LDLT.factorize thirdH (rowsOf 2 0)).D i).toRat) := by
  refine ⟨seqL_addsUp, ?_, ?_, of_option ?_, ?_, ?_, ?_⟩ <;> decide +kernel

/-- The hypotheses of `C117_step` are met by an indefinite matrix. -/
theorem C117_demo_step : ∃ st, IP.computeLDLT (LDLT.eigen 2 1 eigenCutoff) tinyQP false tinyState = .ok st ∧
    (∀ i, Dbl.Finite ((LDLT.factorize (IP.symRed st.H) (rowsOf 2 1)).D i)) ∧
    (∀ i, eigenCutoff < Scalar.abs ((LDLT.factorize (IP.symRed st.H) (rowsOf 2 1)).D i)) ∧
    (∀ i j, Dbl.Finite (st.Hinv i j)) ∧
    (∀ i, Dbl.Finite (IP.applyInvX st (fun _ => d 1) i)) ∧ (∀ k, Dbl.Finite (IP.applyInvY st (fun _ => d 1) k)) := by
  have h : (match IP.computeLDLT (LDLT.eigen 2 1 eigenCutoff) tinyQP false tinyState with
    | .ok st => some st
    | .error _ => none : Option (IPState 2 0 1 D64)).any (fun st => decide ((∀ i, Dbl.Finite ((LDLT.factorize (IP.symRed st.H) (rowsOf 2 1)).D i)) ∧
    (∀ i, eigenCutoff < Scalar.abs ((LDLT.factorize (IP.symRed st.H) (rowsOf 2 1)).D i)) ∧
    (∀ i j, Dbl.Finite (st.Hinv i j)) ∧
    (∀ i, Dbl.Finite (IP.applyInvX st (fun _ => d 1) i)) ∧ (∀ k, Dbl.Finite (IP.applyInvY st (fun _ => d 1) k)))) = true := by
    decide +kernel
  obtain ⟨st, h1, h2⟩ := of_option h
  split at h1
  · rename_i st' he
    cases h1
    exact ⟨_, he, h2⟩
  · cases h1

/-- **C117** (no stability). A strictly convex problem with one equality constraint whose matrix has an exact inverse with no
entry larger than one: the factorisation reports success, and the inverse it gives violates the equality row by one. -/
theorem C117_unstable : ∃ X, (LDLT.eigen 2 1 eigenCutoff).ldltInverse tinyH = some X ∧ (∀ i j, Dbl.Finite (X i j)) ∧
    ∑ j, realVal (tinyH (.inr 0) j) * realVal (X j (.inl 0)) = -1 ∧
    ∃ Y : Matrix (Red 2 1) (Red 2 1) ℝ, (Matrix.of fun i j => realVal (tinyH i j)) * Y = 1 ∧ ∀ i j, |Y i j| ≤ 1 := by
  have h : ((LDLT.eigen 2 1 eigenCutoff).ldltInverse tinyH).any (fun X => decide ((∀ i j, Dbl.Finite (X i j)) ∧
      ∑ j, (tinyH (.inr 0) j).toRat * (X j (.inl 0)).toRat = -1)) = true := by decide +kernel
  obtain ⟨X, h1, h2, h3⟩ := of_option h
  refine ⟨X, h1, h2, ?_, ?_⟩
  · unfold realVal
    exact_mod_cast congrArg (fun q : ℚ => (q : ℝ)) h3
  · let Z : Red 2 1 → Red 2 1 → ℚ := fun i j => match i, j with
      | .inl 0, .inl 0 => 1
      | .inl 0, .inl 1 => -1
      | .inl 1, .inl 0 => -1
      | .inl 1, .inl 1 => 1
      | .inl 0, .inr _ => 1
      | .inr _, .inl 0 => 1
      | .inl 1, .inr _ => 1 / 2 ^ 60
      | .inr _, .inl 1 => 1 / 2 ^ 60
      | .inr _, .inr _ => - 1 / 2 ^ 60
    have hq : (∀ i k, ∑ j, (tinyH i j).toRat * (Z j k / (1 + 1 / 2 ^ 60)) = if i = k then 1 else 0) ∧
        ∀ i j, |Z i j / (1 + 1 / 2 ^ 60)| ≤ 1 := by decide +kernel
    refine ⟨Matrix.of fun i j => ((Z i j / (1 + 1 / 2 ^ 60) : ℚ) : ℝ), ?_, fun i j => ?_⟩
    · ext i k
      rw [Matrix.mul_apply, Matrix.one_apply]
      simp only [Matrix.of_apply]
      unfold realVal
      have := congrArg (fun q : ℚ => (q : ℝ)) (hq.1 i k)
      simp only [Rat.cast_sum, Rat.cast_mul] at this
      rw [this]
      split_ifs <;> simp
    · have := hq.2 i j
      rw [Matrix.of_apply, ← Rat.cast_abs]
      exact_mod_cast this

/-- **C117** (what it means for a solve). In exact arithmetic a problem without inequality constraints is solved by the first
step. Here the first full step leaves the equality constraint `x₀ + x₁ = 0`, satisfied at the start, violated by one; the second
step repairs it. -/
theorem C117_first_step : ∃ r, IP.solve (LDLT.eigen 2 1 eigenCutoff) tinyQP (qpPrm 3 .complementarity) tinyState = .ok r ∧
    r.2.termination = .satisfiedKktTol ∧ r.2.iterations.map (fun it => it.kktInitial.rPrimalEq.toRat) = [0, 1] ∧
    r.2.iterations.map (fun it => it.kktFinal.rPrimalEq.toRat) = [1, 1 / 2 ^ 60] := by
  have h : (match IP.solve (LDLT.eigen 2 1 eigenCutoff) tinyQP (qpPrm 3 .complementarity) tinyState with
    | .ok r => some r
    | .error _ => none : Option (IPState 2 0 1 D64 × QPOutputs D64)).any (fun r => decide (r.2.termination = .satisfiedKktTol ∧
      r.2.iterations.map (fun it => it.kktInitial.rPrimalEq.toRat) = [0, 1] ∧
      r.2.iterations.map (fun it => it.kktFinal.rPrimalEq.toRat) = [1, 1 / 2 ^ 60])) = true := by
    decide +kernel
  obtain ⟨r, h1, h2⟩ := of_option h
  split at h1
  · rename_i r' he
    cases h1
    exact ⟨_, he, h2⟩
  · cases h1

end MiniOpt.Props
