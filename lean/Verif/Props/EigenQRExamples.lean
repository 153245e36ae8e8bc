import Verif.Props.EigenQRNonlinear
import Verif.Props.EigenLDLTExamples
import Mathlib.Tactic.FinCases

/-!
# C113, C114: examples
-/

set_option autoImplicit false

namespace MiniOpt.Props

open MiniOpt MiniOpt.Spec

/-- Minimise `½ x₀² + ½ x₁²` subject to `x₀ = 1` and `s (x₁ - 1) = 0`. -/
noncomputable def pinsQP (s : ℝ) : QP 2 0 2 ℝ where
  G := fun i j => if i = j then 1 else 0
  c := fun _ => 0
  A := !![1, 0; 0, s]
  b := ![-1, -s]
  con := fun m => m.elim0

theorem norm_first : norm2 (![1, 0] : Fin 2 → ℝ) = 1 := by rw [QR.norm2_real]; simp [Fin.sum_univ_two]

theorem norm_second (s : ℝ) : norm2 (![0, s] : Fin 2 → ℝ) = |s| := by
  rw [QR.norm2_real]; simp only [Fin.sum_univ_two]
  simp [Real.sqrt_mul_self_eq_abs]

theorem pins_scale {eps s : ℝ} (he : 0 ≤ eps) (h2 : eps < 1 / 2) :
    (∀ k l : Fin 2, ((2 : ℕ) : ℝ) * eps * norm2 ((!![1, 0; 0, s] : Matrix (Fin 2) (Fin 2) ℝ) l)
      < norm2 ((!![1, 0; 0, s] : Matrix (Fin 2) (Fin 2) ℝ) k)) ↔ 2 * eps < |s| ∧ 2 * eps * |s| < 1 := by
  have h0 : norm2 ((!![1, 0; 0, s] : Matrix (Fin 2) (Fin 2) ℝ) 0) = 1 := norm_first
  have h1 : norm2 ((!![1, 0; 0, s] : Matrix (Fin 2) (Fin 2) ℝ) 1) = |s| := norm_second s
  rw [Fin.forall_fin_two]
  simp only [Fin.forall_fin_two, h0, h1, Nat.cast_ofNat, mul_one]
  constructor
  · rintro ⟨⟨_, h⟩, h', _⟩; exact ⟨h', h⟩
  · rintro ⟨ha, hb⟩
    have hs : 0 < |s| := by linarith
    exact ⟨⟨by linarith, hb⟩, ha, by nlinarith⟩

/-- **C113** (units). For `eps < 1/2` the null-space solver solves this problem if and only if `2 eps < |s|` and
`2 eps |s| < 1`; for every other `s`, including nonzero ones, `Solve` is undefined behaviour. -/
theorem C113_units (eps dd s : ℝ) (he : 0 ≤ eps) (h2 : eps < 1 / 2) (st : NSState 2 ℝ) :
    ((∃ r, NS.solve (QR.eigenNS eps 0 dd) (pinsQP s) st = .ok r) ↔ 2 * eps < |s| ∧ 2 * eps * |s| < 1) ∧
    ((∃ tag, NS.solve (QR.eigenNS eps 0 dd) (pinsQP s) st = .error (.ub tag, st)) ↔ ¬ (2 * eps < |s| ∧ 2 * eps * |s| < 1)) := by
  have ho : ∀ k l : Fin 2, k ≠ l → ∑ i, (pinsQP s).A k i * (pinsQP s).A l i = 0 := by
    intro k l hkl
    fin_cases k <;> fin_cases l <;> first | exact absurd rfl hkl | simp [pinsQP]
  obtain ⟨h3, h4⟩ := C113_orthogonal eps dd he (pinsQP s) (by norm_num) st ho
  refine ⟨h3.trans (pins_scale he h2), h4.trans ?_⟩
  rw [← pins_scale he h2]
  push Not
  rfl

/-- The library's `eps`: `s = 1` is solved and `s = 2⁻⁵¹` is not. -/
example (dd : ℝ) (st : NSState 2 ℝ) :
    (∃ r, NS.solve (QR.eigenNS ((1 / 2) ^ 52) 0 dd) (pinsQP 1) st = .ok r) ∧
    ∃ tag, NS.solve (QR.eigenNS ((1 / 2) ^ 52) 0 dd) (pinsQP ((1 / 2) ^ 51)) st = .error (.ub tag, st) :=
  ⟨(C113_units _ dd 1 (by norm_num) (by norm_num) st).1.mpr (by norm_num),
    (C113_units _ dd _ (by norm_num) (by norm_num) st).2.mpr (by norm_num)⟩

/-! ## Nonlinear least squares -/

section
open MiniOpt.DemoReal MiniOpt.NLS

/-- `x₀ - 1`. -/
noncomputable def pin0 : Residual ℝ := res2 (fun x _ => x - 1) (fun _ _ => 1) fun _ _ => 0
/-- `s (x₁ - 1)`. -/
noncomputable def pin1 (s : ℝ) : Residual ℝ := res2 (fun _ y => s * (y - 1)) (fun _ _ => 0) fun _ _ => s

/-- The cost `x₀ - 3` subject to `x₀ = 1` and `s (x₁ - 1) = 0`. -/
noncomputable def scaled (s : ℝ) : Problem 2 ℝ := ⟨[cost1], [], [pin0, pin1 s]⟩

/-- The environment of a problem with the factorisations of Eigen. -/
noncomputable def qrEnv (eps dd : ℝ) (p : Problem 2 ℝ) : Env 2 2 ℝ :=
  { mkEnv p with E := LDLT.eigen 2 p.K 0, NE := QR.eigenNS eps 0 dd }

theorem scaled_ok (s : ℝ) : WellPosed (scaled s) 2 := by
  refine mk_wellPosed _ ?_ fun c h => by cases h
  intro r hr
  have hr' : r ∈ [cost1, pin0, pin1 s] := hr
  rcases List.mem_cons.mp hr' with rfl | hr'
  · exact ⟨_, _, _, rfl⟩
  rcases List.mem_cons.mp hr' with rfl | hr'
  · exact ⟨_, _, _, rfl⟩
  rcases List.mem_singleton.mp hr' with rfl; exact ⟨_, _, _, rfl⟩

theorem scaled_quiet (eps dd s : ℝ) : ¬ UserThrows (qrEnv eps dd (scaled s)) := by
  rintro (⟨r, hr, q, hq⟩ | ⟨h, _⟩ | ⟨h, _⟩)
  · have hnt : NeverThrowsP (scaled s) := by never_throws
    have := hnt r hr q
    rcases hq with hq | hq
    · rw [this.1] at hq; cases hq
    · rw [this.2] at hq; cases hq
  · exact h rfl
  · exact h rfl

theorem scaled_gradients (s : ℝ) (x : Fin 2 → ℝ) : gradients (D := 2) x (scaled s).eqs = [![1, 0], ![0, s]] := by
  have h0 : (fun k => jacAt pin0 x 2 k) = fun _ : Fin 1 => (![1, 0] : Fin 2 → ℝ) := by
    funext k j
    refine (res2_jac _ _ _ x k j).trans ?_
    fin_cases j <;> simp
  have h1 : (fun k => jacAt (pin1 s) x 2 k) = fun _ : Fin 1 => (![0, s] : Fin 2 → ℝ) := by
    funext k j
    refine (res2_jac _ _ _ x k j).trans ?_
    fin_cases j <;> simp
  show (List.ofFn fun k => jacAt pin0 x 2 k) ++ ((List.ofFn fun k => jacAt (pin1 s) x 2 k) ++ []) = _
  rw [h0, h1]
  rfl

/-- **C114** (units of a constraint). For `eps < 1/2` and every starting point, `Solve` with the default parameters returns if
and only if `2 eps < |s|` and `2 eps |s| < 1`. Otherwise it is undefined behaviour. For every `s ≠ 0` it is the same problem. -/
theorem C114_units (eps dd s : ℝ) (he : 0 ≤ eps) (h2 : eps < 1 / 2) (x0 : Fin 2 → ℝ) (o : (qrEnv eps dd (scaled s)).Obj) :
    ((∃ r, solve (qrEnv eps dd (scaled s)) NLSParams.default x0 o = .ok r) ↔ 2 * eps < |s| ∧ 2 * eps * |s| < 1) ∧
    (¬ (2 * eps < |s| ∧ 2 * eps * |s| < 1) →
      ∃ tag o', solve (qrEnv eps dd (scaled s)) NLSParams.default x0 o = .error (.ub tag, o')) := by
  have hub : ¬ (2 * eps < |s| ∧ 2 * eps * |s| < 1) →
      ∃ tag o', solve (qrEnv eps dd (scaled s)) NLSParams.default x0 o = .error (.ub tag, o') := by
    intro hn
    refine C114_ub (qrEnv eps dd (scaled s)) eps dd he rfl (scaled_ok s) rfl NLSParams.default nls_default_valid
      (by simp [NLSParams.default]) (scaled_quiet eps dd s) x0 ?_ o
    have hg : gradients (D := 2) x0 (qrEnv eps dd (scaled s)).p.eqs = [![1, 0], ![0, s]] := scaled_gradients s x0
    rw [hg]
    have hK : (((qrEnv eps dd (scaled s)).p.K : ℕ) : ℝ) = 2 := by
      have : (qrEnv eps dd (scaled s)).p.K = 2 := rfl
      rw [this]; norm_num
    rw [hK]
    by_cases h : 2 * eps < |s|
    · refine ⟨![1, 0], by simp, ![0, s], by simp, ?_⟩
      rw [norm_first, norm_second]
      by_contra hc
      exact hn ⟨h, not_le.mp hc⟩
    · refine ⟨![0, s], by simp, ![1, 0], by simp, ?_⟩
      rw [norm_first, norm_second, mul_one]
      exact not_lt.mp h
  refine ⟨⟨fun ⟨r, hr⟩ => ?_, fun hs => ?_⟩, hub⟩
  · by_contra hn
    obtain ⟨tag, o', h⟩ := hub hn
    rw [hr] at h; cases h
  · refine C114_returns (qrEnv eps dd (scaled s)) eps dd he rfl (scaled_ok s) (Or.inl rfl) rfl (show 0 < 2 by norm_num) NLSParams.default
      nls_default_valid (by simp [NLSParams.default]) (scaled_quiet eps dd s) ?_ x0 o
    intro x A hA
    have hg : gradients (D := 2) x (qrEnv eps dd (scaled s)).p.eqs = [![1, 0], ![0, s]] := scaled_gradients s x
    rw [hg] at hA
    have hA' : A = (fun k : Fin 2 => (!![1, 0; 0, s] : Matrix (Fin 2) (Fin 2) ℝ) k) := by
      refine List.ofFn_injective (n := 2) (hA.trans ?_)
      rfl
    subst hA'
    refine separated_of_orthogonal (K := 2) ?_ ((pins_scale he h2).mpr hs)
    intro k l hkl
    fin_cases k <;> fin_cases l <;> first | exact absurd rfl hkl | simp
end

end MiniOpt.Props
