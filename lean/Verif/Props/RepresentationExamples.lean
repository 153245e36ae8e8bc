import Verif.Spec.AngleSpec
import Verif.Props.Representation
import Verif.Props.NLSExamples
import Mathlib.Analysis.SpecialFunctions.Trigonometric.Basic
import Mathlib.Analysis.Real.Pi.Bounds
import Mathlib.Tactic.FinCases

/-! C134: angles, and an example. -/

set_option autoImplicit false

namespace MiniOpt.Props

open MiniOpt MiniOpt.Spec MiniOpt.NLS MiniOpt.DemoReal

variable {n : Nat}

theorem told_refl {α : Type} [Scalar α] (r : Residual α) (x : Fin n → α) : NotToldApart r x x := ⟨rfl, rfl, rfl, rfl, rfl⟩

theorem told_symm {α : Type} [Scalar α] {r : Residual α} {x y : Fin n → α} (h : NotToldApart r x y) : NotToldApart r y x :=
  ⟨h.value.symm, h.valueJ.symm, h.jac.symm, h.throws.symm, h.throwsJ.symm⟩

theorem told_trans {α : Type} [Scalar α] {r : Residual α} {x y z : Fin n → α} (h : NotToldApart r x y) (h' : NotToldApart r y z) :
    NotToldApart r x z :=
  ⟨h.value.trans h'.value, h.valueJ.trans h'.valueJ, h.jac.trans h'.jac, h.throws.trans h'.throws, h.throwsJ.trans h'.throwsJ⟩

theorem told_turns {r : Residual ℝ} {period : ℝ} {i : Fin n}
    (h : ∀ y : Fin n → ℝ, NotToldApart r (Function.update y i (y i + period)) y) (z : ℤ) (y : Fin n → ℝ) :
    NotToldApart r (Function.update y i (y i + z * period)) y := by
  have hnat : ∀ (k : ℕ) (y : Fin n → ℝ), NotToldApart r (Function.update y i (y i + k * period)) y := by
    intro k
    induction k with
    | zero => intro y; simpa using told_refl r y
    | succ k ih =>
      intro y
      have h1 := h (Function.update y i (y i + k * period))
      rw [Function.update_self, Function.update_idem] at h1
      have e : y i + ((k + 1 : ℕ) : ℝ) * period = y i + k * period + period := by push_cast; ring
      rw [e]
      exact told_trans h1 (ih y)
  obtain ⟨k, rfl | rfl⟩ := z.eq_nat_or_neg
  · have := hnat k y
    push_cast
    exact this
  · have h1 := hnat k (Function.update y i (y i + ((-(k : ℤ) : ℤ) : ℝ) * period))
    rw [Function.update_self, Function.update_idem] at h1
    have e : y i + ((-(k : ℤ) : ℤ) : ℝ) * period + k * period = y i := by push_cast; ring
    rw [e, Function.update_eq_self] at h1
    exact told_symm h1

theorem told_wrap {p : Problem n ℝ} {period : ℝ} (hp : 0 < period) (lo : ℝ) {s : Fin n → Prop} [DecidablePred s]
    (ha : Angles p period s) : Unnoticed p (wrapAll hp lo s) := by
  constructor
  · intro r hr y
    have key : ∀ k, k ≤ n → NotToldApart r (fun i : Fin n => if i.val < k then wrapAll hp lo s y i else y i) y := by
      intro k
      induction k with
      | zero => intro _; simpa using told_refl r y
      | succ k ih =>
        intro hk
        refine told_trans ?_ (ih (by omega))
        have hlt : k < n := hk
        by_cases hs : s ⟨k, hlt⟩
        · have h1 := told_turns (fun y => ha.periodic r hr y ⟨k, hlt⟩ hs) (-(toIcoDiv hp lo (y ⟨k, hlt⟩)))
            (fun i : Fin n => if i.val < k then wrapAll hp lo s y i else y i)
          have e : (fun i : Fin n => if i.val < k + 1 then wrapAll hp lo s y i else y i)
              = Function.update (fun i : Fin n => if i.val < k then wrapAll hp lo s y i else y i) ⟨k, hlt⟩
                ((fun i : Fin n => if i.val < k then wrapAll hp lo s y i else y i) ⟨k, hlt⟩
                  + ((-(toIcoDiv hp lo (y ⟨k, hlt⟩)) : ℤ) : ℝ) * period) := by
            funext i
            by_cases hi : i = ⟨k, hlt⟩
            · subst hi
              rw [Function.update_self]
              simp only [Nat.lt_succ_self, if_true, Nat.lt_irrefl, if_false]
              unfold wrapAll
              rw [if_pos hs, ← self_sub_toIcoDiv_zsmul]
              simp only [zsmul_eq_mul, Int.cast_neg]
              ring
            · rw [Function.update_of_ne hi]
              have : i.val ≠ k := fun hh => hi (Fin.ext hh)
              by_cases h2 : i.val < k
              · rw [if_pos h2, if_pos (by omega)]
              · rw [if_neg h2, if_neg (by omega)]
          rw [e]
          exact h1
        · have e : (fun i : Fin n => if i.val < k + 1 then wrapAll hp lo s y i else y i)
              = fun i : Fin n => if i.val < k then wrapAll hp lo s y i else y i := by
            funext i
            by_cases hi : i = ⟨k, hlt⟩
            · subst hi
              simp only [Nat.lt_succ_self, if_true, Nat.lt_irrefl, if_false]
              unfold wrapAll
              rw [if_neg hs]
            · have : i.val ≠ k := fun hh => hi (Fin.ext hh)
              by_cases h2 : i.val < k
              · rw [if_pos h2, if_pos (by omega)]
              · rw [if_neg h2, if_neg (by omega)]
          rw [e]
          exact told_refl r _
    have := key n le_rfl
    have e : (fun i : Fin n => if i.val < n then wrapAll hp lo s y i else y i) = wrapAll hp lo s y := by
      funext i; rw [if_pos i.isLt]
    rwa [e] at this
  · intro c hc y j hj
    unfold wrapAll
    rw [if_neg (ha.unbounded c hc j hj)]

theorem wrap_moves {period : ℝ} (hp : 0 < period) (lo : ℝ) (s : Fin n → Prop) [DecidablePred s] (y e : Fin n → ℝ) (a : ℝ) :
    addAndWrap hp lo s (wrapAll hp lo s y) e a = wrapAll hp lo s fun i => y i + e i * a := by
  funext i
  unfold addAndWrap wrapAll
  by_cases hs : s i
  · simp only [if_pos hs]
    rw [← self_sub_toIcoDiv_zsmul hp lo (y i)]
    have : y i - toIcoDiv hp lo (y i) • period + e i * a = (y i + e i * a) + (-(toIcoDiv hp lo (y i))) • period := by
      simp only [zsmul_eq_mul, Int.cast_neg]; ring
    rw [this, toIcoMod_add_zsmul]
  · simp only [if_neg hs]

/-- **C134** (angles, exact arithmetic). Let some of the variables be angles, and let the retraction wrap them into `[lo, lo + period)`
after each step. The solve from the wrapped start is the solve with plain addition, with the variables wrapped: the same exception, or
the same outputs and calls of the callback. -/
theorem C134_angles (env : Env n n ℝ) {period : ℝ} (hp : 0 < period) (lo : ℝ) (s : Fin n → Prop) [DecidablePred s]
    (ha : Angles env.p period s) (hR : env.retraction = some (addAndWrap hp lo s)) (hthr : ∀ x d a, env.retractionThrows x d a = false)
    (prm : NLSParams ℝ) (x0 : Fin n → ℝ) (o : env.Obj) :
    solve env prm (wrapAll hp lo s x0) (mapObj (wrapAll hp lo s) o)
      = match solve (withRetraction env none fun _ _ _ => false) prm x0 o with
        | .error (e, o1) => .error (e, mapObj (wrapAll hp lo s) o1)
        | .ok (o1, out, calls) => .ok (mapObj (wrapAll hp lo s) o1, out, calls) := by
  have hm : ∀ y e a, retract env (wrapAll hp lo s y) e a
      = (retract (withRetraction env none fun _ _ _ => false) y e a).map (wrapAll hp lo s) := ?_
  · rw [C134_normalised env none (fun _ _ _ => false) (wrapAll hp lo s) (told_wrap hp lo ha) hm prm x0 o]
    cases solve (withRetraction env none fun _ _ _ => false) prm x0 o <;> rfl
  intro y e a
  have h1 : retract env (wrapAll hp lo s y) e a = .ok (addAndWrap hp lo s (wrapAll hp lo s y) e a) := by
    unfold retract
    rw [hR]
    simp only [hthr]
    rfl
  have h2 : retract (withRetraction env none fun _ _ _ => false) y e a = .ok fun i => y i + e i * a := by
    unfold retract withRetraction
    simp
  rw [h1, h2, wrap_moves]
  rfl

/-! ## An example -/

/-- `½ (sin x₀ + x₁ - 1)² + ½ (cos x₀)²` with `x₁ ≥ 0`; `x₀` is an angle. -/
noncomputable def armProblem : Problem 2 ℝ :=
  ⟨[res2 (fun x y => Real.sin x + y - 1) (fun x _ => Real.cos x) (fun _ _ => 1),
    res2 (fun x _ => Real.cos x) (fun x _ => - Real.sin x) (fun _ _ => 0)], [⟨1, 1, 0⟩], []⟩

/-- The first variable. -/
def isFirst (i : Fin 2) : Prop := i = 0

instance : DecidablePred isFirst := fun i => inferInstanceAs (Decidable (i = 0))

theorem arm_ok : WellPosed armProblem 2 :=
  mk_wellPosed _ (by intro r hr; simp [armProblem] at hr; rcases hr with rfl | rfl <;> exact ⟨_, _, _, rfl⟩)
    (by intro c hc; simp [armProblem] at hc; subst hc; decide)

theorem arm_angle : Angles armProblem (2 * Real.pi) isFirst := by
  have hpar : ∀ (f fx fy : ℝ → ℝ → ℝ) (y : Fin 2 → ℝ), params (res2 f fx fy) y = fun l : Fin 2 => y l := by
    intro f fx fy y
    funext l
    unfold params
    rw [dif_pos (show 0 ≤ (res2 f fx fy).index l ∧ (res2 f fx fy).index l < ((2 : ℕ) : Int) from
      ⟨Int.natCast_nonneg _, by have := l.isLt; show (l.val : Int) < 2; have h2 : (res2 f fx fy).P = 2 := rfl; omega⟩)]
    rfl
  have key : ∀ (f fx fy : ℝ → ℝ → ℝ), (∀ x y, f (x + 2 * Real.pi) y = f x y) → (∀ x y, fx (x + 2 * Real.pi) y = fx x y) →
      (∀ x y, fy (x + 2 * Real.pi) y = fy x y) → ∀ (y : Fin 2 → ℝ) (i : Fin 2), isFirst i →
      NotToldApart (res2 f fx fy) (Function.update y i (y i + 2 * Real.pi)) y := by
    intro f fx fy h1 h2 h3 y i hi
    have hi0 : i = 0 := hi
    subst hi0
    have e0 : (Function.update y 0 (y 0 + 2 * Real.pi)) 0 = y 0 + 2 * Real.pi := Function.update_self _ _ _
    have e1 : (Function.update y 0 (y 0 + 2 * Real.pi)) 1 = y 1 := Function.update_of_ne (by decide) _ _
    refine ⟨?_, ?_, ?_, rfl, rfl⟩
    · rw [hpar, hpar]; funext k; show f _ _ = f _ _; beta_reduce; rw [e0, e1, h1]
    · rw [hpar, hpar]; funext k; show f _ _ = f _ _; beta_reduce; rw [e0, e1, h1]
    · rw [hpar, hpar]
      funext k l
      have : ∀ l : Fin 2, (if l = 0 then fx (Function.update y 0 (y 0 + 2 * Real.pi) 0) (Function.update y 0 (y 0 + 2 * Real.pi) 1)
          else fy (Function.update y 0 (y 0 + 2 * Real.pi) 0) (Function.update y 0 (y 0 + 2 * Real.pi) 1))
          = if l = 0 then fx (y 0) (y 1) else fy (y 0) (y 1) := by
        intro l
        rw [e0, e1, h2, h3]
      exact this l
  constructor
  · intro r hr y i hi
    have hr' : r ∈ armProblem.costs := hr.elim id fun h => by cases h
    simp only [armProblem, List.mem_cons, List.not_mem_nil, or_false] at hr'
    rcases hr' with rfl | rfl
    · exact key _ _ _ (fun x y => by simp [Real.sin_add_two_pi]) (fun x y => by simp [Real.cos_add_two_pi]) (fun x y => rfl) y i hi
    · exact key _ _ _ (fun x y => by simp [Real.cos_add_two_pi]) (fun x y => by simp [Real.sin_add_two_pi]) (fun x y => rfl) y i hi
  · intro c hc i hi hf
    simp only [armProblem, List.mem_cons, List.not_mem_nil, or_false] at hc
    subst hc
    have : i = 0 := hf
    subst this
    simp at hi

/-- The solver for `armProblem` that keeps the angle in `[-π, π)`. -/
noncomputable def armEnv : Env 2 2 ℝ :=
  { mkEnv armProblem with retraction := some (addAndWrap Real.two_pi_pos (-Real.pi) isFirst) }

/-- C134 at work: from the angle `7` and from `7 - 2π` the two solvers write the same log, with at least one iteration. -/
example : ∃ (o1 : armEnv.Obj) (out : NLSOutputs ℝ) (calls : List (NLSIteration ℝ)) (o' : (mkEnv armProblem).Obj),
    solve armEnv dp ![7 - 2 * Real.pi, 1] (mapObj (wrapAll Real.two_pi_pos (-Real.pi) isFirst) (mkObj armProblem)) = .ok (o1, out, calls) ∧
    solve (mkEnv armProblem) dp ![7, 1] (mkObj armProblem) = .ok (o', out, calls) ∧ out.iterations ≠ [] ∧
    -Real.pi ≤ o1.vars 0 ∧ o1.vars 0 < Real.pi ∧ o1.vars 1 = o'.vars 1 := by
  obtain ⟨o', out, calls, h, hne⟩ := ip_run armProblem arm_ok (by simp [armProblem])
    (fun c hc => by simp [armProblem] at hc; subst hc; norm_num) dp nls_default_valid dp_penalty dp_iterations ![7, 1]
  have hA := C134_angles armEnv Real.two_pi_pos (-Real.pi) isFirst arm_angle rfl (fun _ _ _ => rfl) dp ![7, 1] (mkObj armProblem)
  have h' : solve (withRetraction armEnv none fun _ _ _ => false) dp ![7, 1] (mkObj armProblem) = .ok (o', out, calls) := h
  rw [h'] at hA
  have hw : wrapAll Real.two_pi_pos (-Real.pi) isFirst ![7, 1] = ![7 - 2 * Real.pi, 1] := by
    funext i
    fin_cases i
    · show toIcoMod Real.two_pi_pos (-Real.pi) 7 = 7 - 2 * Real.pi
      rw [toIcoMod_eq_iff]
      refine ⟨⟨?_, ?_⟩, 1, ?_⟩
      · linarith [Real.pi_lt_four]
      · linarith [Real.pi_gt_three]
      · simp
    · rfl
  rw [hw] at hA
  refine ⟨_, out, calls, o', hA, h, hne, ?_, ?_, ?_⟩
  · exact left_le_toIcoMod Real.two_pi_pos (-Real.pi) (o'.vars 0)
  · have := toIcoMod_lt_right Real.two_pi_pos (-Real.pi) (o'.vars 0)
    have h1 : toIcoMod Real.two_pi_pos (-Real.pi) (o'.vars 0) < Real.pi := by linarith
    exact h1
  · rfl


end MiniOpt.Props
