import Verif.Props.Symmetry
import Verif.Props.FlipExamples
import Verif.Props.GlobalExamples

/-!
# Examples for C136
-/

set_option autoImplicit false

namespace MiniOpt.Props

open MiniOpt MiniOpt.Spec MiniOpt.NLS MiniOpt.DemoReal

noncomputable def twinA : Residual ℝ := res2 (fun x y => x ^ 3 * y - 3) (fun x y => 3 * x ^ 2 * y) fun x _ => x ^ 3
noncomputable def twinB : Residual ℝ := res2 (fun x y => y ^ 3 * x - 3) (fun _ y => y ^ 3) fun x y => 3 * y ^ 2 * x

/-- `x₀³ x₁ = 3` and `x₁³ x₀ = 3` in least squares, both variables at most 2. -/
noncomputable def twinEnv : Env 2 2 ℝ := mkEnv ⟨[twinA, twinB], [⟨0, -1, 2⟩, ⟨1, -1, 2⟩], []⟩

theorem twin_ok : WellPosed twinEnv.p 2 := by
  refine mk_wellPosed _ ?_ ?_
  · intro r hr
    have hr' : r ∈ [twinA, twinB] := by simpa [twinEnv, mkEnv] using hr
    rcases List.mem_cons.mp hr' with rfl | hr'
    · exact ⟨_, _, _, rfl⟩
    · rcases List.mem_singleton.mp hr' with rfl; exact ⟨_, _, _, rfl⟩
  · intro c hc
    have hc' : c ∈ [(⟨0, -1, 2⟩ : Ineq ℝ), ⟨1, -1, 2⟩] := hc
    rcases List.mem_cons.mp hc' with rfl | hc'
    · decide
    · rcases List.mem_singleton.mp hc' with rfl; decide

theorem exchange_map (y : Fin 2 → ℝ) : flipMap exchange (fun _ => false) (fun _ => 0) y = fun i => y (exchange i) := by
  funext i; simp [flipMap, sgn]

theorem exchange_flip (e : Fin 2 → ℝ) : flip exchange (fun _ => false) e = fun i => e (exchange i) := by
  funext i
  show sgn false * e (exchange i) = _
  simp [sgn]

theorem res2_slope (f fx fy : ℝ → ℝ → ℝ) (x e : Fin 2 → ℝ) (k : Fin 1) :
    slopeAt (res2 f fx fy) x e k = fx (x 0) (x 1) * e 0 + fy (x 0) (x 1) * e 1 := by
  have : slopeAt (res2 f fx fy) x e k = ∑ j : Fin 2, jacAt (res2 f fx fy) x 2 k j * e j := rfl
  rw [this, Fin.sum_univ_two, res2_jac, res2_jac]
  simp

theorem res2_exchanged (f fx fy g gx gy : ℝ → ℝ → ℝ) (h : ∀ x y, g x y = f y x) (hx : ∀ x y, gx x y = fy y x)
    (hy : ∀ x y, gy x y = fx y x) :
    SameResidual 2 (flipMap exchange (fun _ => false) fun _ => 0) (fun _ => flip exchange fun _ => false)
      (res2 f fx fy) (res2 g gx gy) := by
  constructor
  · intro y
    rw [exchange_map]
    show List.ofFn (n := 1) _ = List.ofFn (n := 1) _
    congr 1
    funext k
    refine (res2_value g gx gy y k).trans (Eq.trans ?_ (res2_value f fx fy _ k).symm)
    rw [h]
    simp [exchange]
  · intro y e
    rw [exchange_map, exchange_flip]
    show List.ofFn (n := 1) _ = List.ofFn (n := 1) _
    congr 1
    funext k
    refine (res2_slope g gx gy y e k).trans (Eq.trans ?_ (res2_slope f fx fy _ _ k).symm)
    rw [hx, hy]
    simp [exchange]
    ring

theorem twin_same : SameProblem twinEnv twinEnv (flipMap exchange (fun _ => false) fun _ => 0) fun _ => flip exchange fun _ => false := by
  refine ⟨⟨[twinB, twinA], .cons ?_ (.cons ?_ .nil), .swap _ _ _⟩, ⟨[], .nil, .refl _⟩, ?_, trivial⟩
  · exact res2_exchanged _ _ _ _ _ _ (fun _ _ => rfl) (fun _ _ => rfl) fun _ _ => rfl
  · exact res2_exchanged _ _ _ _ _ _ (fun _ _ => rfl) (fun _ _ => rfl) fun _ _ => rfl
  · intro y e a x z hx hz
    have hx' : x = fun i => flipMap exchange (fun _ => false) (fun _ => 0) y i + flip exchange (fun _ => false) e i * a := by
      injection hx.symm
    have hz' : z = fun i => y i + e i * a := by injection hz.symm
    subst hx' hz'
    rw [exchange_map, exchange_map, exchange_flip]

/-- The default parameters with a positive lower limit of the damping. -/
theorem damped_always {env : Env 2 2 ℝ} {x0 : Fin 2 → ℝ} {o o' : env.Obj} {out : NLSOutputs ℝ} {calls : List (NLSIteration ℝ)}
    (h : solve env dampedPrm x0 o = .ok (o', out, calls)) : ∀ it ∈ out.iterations, 0 < it.lambda := by
  intro it hit
  have := (C43_lambda_limits env dampedPrm x0 o o' out calls h).1 it hit |>.1
  have e : dampedPrm.minLambda = 1 / 2 := rfl
  rw [e] at this
  linarith

/-- From any start on the diagonal, with damping, the solve ends on the diagonal. -/
example (v : ℝ) : ∃ (o1 : twinEnv.Obj) (out : NLSOutputs ℝ) (calls : List (NLSIteration ℝ)),
    solve twinEnv dampedPrm (fun _ => v) (mkObj _) = .ok (o1, out, calls) ∧ out.iterations ≠ [] ∧ o1.vars 0 = o1.vars 1 := by
  obtain ⟨o1, out, calls, h, hne⟩ := ip_run twinEnv.p twin_ok (by simp [twinEnv, mkEnv]) (by
      intro c hc
      have hc' : c ∈ [(⟨0, -1, 2⟩ : Ineq ℝ), ⟨1, -1, 2⟩] := hc
      rcases List.mem_cons.mp hc' with rfl | hc'
      · norm_num
      · rcases List.mem_singleton.mp hc' with rfl; norm_num)
    dampedPrm dampedPrm_valid (by simp [dampedPrm, NLSParams.default]) (by simp [dampedPrm, NLSParams.default]) (fun _ => v)
  refine ⟨o1, out, calls, h, hne, ?_⟩
  have key := C136_symmetric_bounds twinEnv exchange (fun _ => false) (fun _ => 0) twin_same (by
      have e : twinEnv.p.ineq.map (flippedBound exchange (fun _ => false) fun _ => 0) = [⟨1, -1, 2⟩, ⟨0, -1, 2⟩] := by
        show [_, _] = _
        unfold flippedBound
        simp [exchange, sgn]
      rw [e]
      exact .swap _ _ _) (by simp [twinEnv, mkEnv]) exactEigen_contract twin_ok
    ⟨fun _ => 0, fun c hc => by
      have hc' : c ∈ [(⟨0, -1, 2⟩ : Ineq ℝ), ⟨1, -1, 2⟩] := hc
      rcases List.mem_cons.mp hc' with rfl | hc'
      · norm_num [boundAt]
      · rcases List.mem_singleton.mp hc' with rfl; norm_num [boundAt]⟩
    dampedPrm (fun _ => v) (by rw [exchange_map]) _ o1 out calls h fun k it a hit _ =>
      ⟨.inl (damped_always h it (List.mem_of_getElem? hit)), by
        intro w hw
        have : w = [] := List.length_eq_zero_iff.mp hw
        exact ⟨fun _ => 0, this.symm⟩⟩
  rw [exchange_map] at key
  have := congrFun key 1
  simpa [exchange] using this

/-- `x₀ - 3`, which does not list variable 1. -/
def lone : Residual ℝ where
  dim := 1
  P := 1
  index _ := 0
  value p _ := p 0 - 3
  valueJ p _ := p 0 - 3
  jac _ _ _ := 1

noncomputable def loneEnv : Env 2 2 ℝ := mkEnv ⟨[lone], [⟨0, -1, 2⟩], []⟩

theorem lone_ok : WellPosed loneEnv.p 2 := by
  have hm : ∀ r ∈ loneEnv.p.costs ++ loneEnv.p.eqs, r = lone := fun r hr => by simpa [loneEnv, mkEnv] using hr
  refine ⟨?_, ?_, ?_, ?_, ?_⟩
  · intro r hr; rw [hm r hr]; exact fun l => ⟨(by decide : (0 : Int) ≤ 0), (by decide : (0 : Int) < 2)⟩
  · intro r hr; rw [hm r hr]; exact fun l => ⟨(by decide : (0 : Int) ≤ 0), (by decide : (0 : Int) < 2)⟩
  · intro r hr; rw [hm r hr]; exact fun a b _ => Subsingleton.elim (α := Fin 1) a b
  · intro r hr; rw [hm r hr]; exact fun _ => rfl
  · intro c hc
    have hc' : c ∈ [(⟨0, -1, 2⟩ : Ineq ℝ)] := hc
    rcases List.mem_singleton.mp hc' with rfl; decide

/-- Variable 1 is not read: whatever its initial value, it keeps it, although the Hessian is singular in its direction. -/
example (x0 : Fin 2 → ℝ) : ∃ (o1 : loneEnv.Obj) (out : NLSOutputs ℝ) (calls : List (NLSIteration ℝ)),
    solve loneEnv dampedPrm x0 (mkObj _) = .ok (o1, out, calls) ∧ out.iterations ≠ [] ∧ o1.vars 1 = x0 1 := by
  obtain ⟨o1, out, calls, h, hne⟩ := ip_run loneEnv.p lone_ok (by simp [loneEnv, mkEnv]) (by
      intro c hc
      have hc' : c ∈ [(⟨0, -1, 2⟩ : Ineq ℝ)] := hc
      rcases List.mem_singleton.mp hc' with rfl; norm_num)
    dampedPrm dampedPrm_valid (by simp [dampedPrm, NLSParams.default]) (by simp [dampedPrm, NLSParams.default]) x0
  refine ⟨o1, out, calls, h, hne, ?_⟩
  refine C136_unread_bounds loneEnv rfl trivial 1 ⟨?_, ?_⟩ exactEigen_contract lone_ok (by simp [loneEnv, mkEnv])
    ⟨fun _ => 0, fun c hc => by
      have hc' : c ∈ [(⟨0, -1, 2⟩ : Ineq ℝ)] := hc
      rcases List.mem_singleton.mp hc' with rfl; norm_num [boundAt]⟩
    dampedPrm x0 _ o1 out calls h (damped_always h) fun k it a _ _ w hw =>
      ⟨fun _ => 0, (List.length_eq_zero_iff.mp hw).symm⟩
  · intro r hr
    have : r = lone := by simpa [loneEnv, mkEnv] using hr
    subst this
    exact fun l => (by decide : (0 : Int) ≠ 1)
  · intro c hc
    have hc' : c ∈ [(⟨0, -1, 2⟩ : Ineq ℝ)] := hc
    rcases List.mem_singleton.mp hc' with rfl; decide

end MiniOpt.Props
