import Verif.Props.Coordinates

/-!
# Small costs are not improved (exact arithmetic)
-/

set_option autoImplicit false

namespace MiniOpt.Props

open MiniOpt.Spec MiniOpt.NLS

variable {n D : Nat}

/-- At the only minimiser the directional derivative is minus the quadratic form, and lies within twice the cost. -/
theorem only_min_slope {p : Problem D ℝ} (hp : WellPosed p n) {x : Fin n → ℝ} {lam : ℝ}
    {q0 q : QPData D p.M p.K ℝ} {pre : Errors ℝ} (hl : linearize p x lam q0 = .ok (q, pre)) (hK : p.eqs = [])
    {d : Fin D → ℝ} (hd : OnlyMin q d) :
    (∑ i, q.c i * d i) ≤ 0 ∧ -(2 * pre.f) ≤ ∑ i, q.c i * d i := by
  obtain ⟨f1, f2, -, -, -, f6⟩ := linearize_facts hp hl
  have hK0 : p.K = 0 := by simp [Problem.K, hK]
  have hfeas : ∀ u : Fin D → ℝ, ∀ k, (∑ j, q.A k j * u j) + q.b k = 0 :=
    fun u k => absurd (lt_of_lt_of_eq k.isLt hK0) (Nat.not_lt_zero _)
  have hmin : ∀ u : Fin D → ℝ, qval q d ≤ qval q u := by
    intro u
    by_cases hu : u = d
    · rw [hu]
    · exact (hd.2 u (hfeas u) hu).le
  have hscale : ∀ t : ℝ, qval q (fun i => t * d i)
      = 1 / 2 * t ^ 2 * (∑ i, ∑ j, d i * q.G (max i j) (min i j) * d j) + t * ∑ i, q.c i * d i := by
    intro t
    unfold qval
    have e1 : ∑ i, ∑ j, t * d i * q.G (max i j) (min i j) * (t * d j)
        = t ^ 2 * ∑ i, ∑ j, d i * q.G (max i j) (min i j) * d j := by
      rw [Finset.mul_sum]
      refine Finset.sum_congr rfl fun i _ => ?_
      rw [Finset.mul_sum]
      exact Finset.sum_congr rfl fun j _ => by ring
    have e2 : ∑ i, q.c i * (t * d i) = t * ∑ i, q.c i * d i := by
      rw [Finset.mul_sum]
      exact Finset.sum_congr rfl fun i _ => by ring
    rw [e1, e2]
    ring
  have hq1 : qval q d = 1 / 2 * (∑ i, ∑ j, d i * q.G (max i j) (min i j) * d j) + ∑ i, q.c i * d i := rfl
  have hQ : (∑ i, ∑ j, d i * q.G (max i j) (min i j) * d j)
      = (p.costs.map fun r => ∑ k, slopeAt r x d k ^ 2).sum + max lam 0 * ∑ i, d i ^ 2 := f6 d
  have hC : ∑ i, q.c i * d i = (p.costs.map fun r => ∑ k, valueAt r x k * slopeAt r x d k).sum := f2 d
  set Q := ∑ i, ∑ j, d i * q.G (max i j) (min i j) * d j with hQdef
  set C := ∑ i, q.c i * d i with hCdef
  have hQ0 : 0 ≤ Q := by
    rw [hQ]
    have : 0 ≤ (p.costs.map fun r => ∑ k, slopeAt r x d k ^ 2).sum := by
      refine List.sum_nonneg fun v hv => ?_
      obtain ⟨r, _, rfl⟩ := List.mem_map.mp hv
      exact Finset.sum_nonneg fun k _ => sq_nonneg _
    have := mul_nonneg (le_max_right lam 0) (Finset.sum_nonneg (s := Finset.univ) fun (i : Fin D) _ => sq_nonneg (d i))
    linarith
  have hineq : ∀ t : ℝ, 1 / 2 * Q + C ≤ 1 / 2 * t ^ 2 * Q + t * C := fun t => by
    have := hmin fun i => t * d i
    rw [hscale, hq1] at this
    exact this
  -- stationarity along `d`
  have hst : C = -Q := by
    rcases hQ0.lt_or_eq with hpos | h0
    · have h1 := hineq (-C / Q)
      have e : 1 / 2 * (-C / Q) ^ 2 * Q + -C / Q * C = -(C ^ 2 / (2 * Q)) := by field_simp; ring
      rw [e] at h1
      have h2 : (Q + C) ^ 2 / (2 * Q) ≤ 0 := by
        have e2 : (Q + C) ^ 2 / (2 * Q) = 1 / 2 * Q + C + C ^ 2 / (2 * Q) := by field_simp; ring
        rw [e2]; linarith
      have h3 : (Q + C) ^ 2 ≤ 0 := by
        by_contra hc
        push Not at hc
        have := div_pos hc (by linarith : (0 : ℝ) < 2 * Q)
        linarith
      have h4 : Q + C = 0 := pow_eq_zero_iff two_ne_zero |>.mp (le_antisymm h3 (sq_nonneg _))
      linarith
    · have h1 := hineq 2
      have h2 := hineq 0
      rw [← h0] at h1 h2 ⊢
      linarith
  -- the model of the cost is nonnegative
  have hmodel : 0 ≤ pre.f + C + 1 / 2 * (p.costs.map fun r => ∑ k, slopeAt r x d k ^ 2).sum := by
    have hf : pre.f = (p.costs.map fun r => 1 / 2 * ∑ k, valueAt r x k ^ 2).sum := by
      rw [f1]; exact costAt_real _ _
    rw [hf, hC]
    have : ∀ l : List (Residual ℝ), 0 ≤ (l.map fun r => 1 / 2 * ∑ k, valueAt r x k ^ 2).sum
        + (l.map fun r => ∑ k, valueAt r x k * slopeAt r x d k).sum
        + 1 / 2 * (l.map fun r => ∑ k, slopeAt r x d k ^ 2).sum := by
      intro l
      induction l with
      | nil => simp
      | cons r l ih =>
        simp only [List.map_cons, List.sum_cons]
        have h1 : 0 ≤ 1 / 2 * ∑ k, (valueAt r x k + slopeAt r x d k) ^ 2 := by
          have := Finset.sum_nonneg (s := Finset.univ) fun (k : Fin r.dim) _ => sq_nonneg (valueAt r x k + slopeAt r x d k)
          linarith
        have h2 : ∑ k, (valueAt r x k + slopeAt r x d k) ^ 2 = ∑ k, valueAt r x k ^ 2
            + 2 * ∑ k, valueAt r x k * slopeAt r x d k + ∑ k, slopeAt r x d k ^ 2 := by
          rw [Finset.mul_sum, ← Finset.sum_add_distrib, ← Finset.sum_add_distrib]
          exact Finset.sum_congr rfl fun k _ => by ring
        rw [h2] at h1
        linarith
    exact this _
  have hle : (p.costs.map fun r => ∑ k, slopeAt r x d k ^ 2).sum ≤ Q := by
    rw [hQ]
    have := mul_nonneg (le_max_right lam 0) (Finset.sum_nonneg (s := Finset.univ) fun (i : Fin D) _ => sq_nonneg (d i))
    linarith
  constructor
  · linarith
  · linarith

theorem ls_first {env : Env n D ℝ} {prm : NLSParams ℝ} {x : Fin n → ℝ} {dx : Fin D → ℝ} {pre : Errors ℝ}
    {d : DirectionalDerivatives ℝ} {pen : ℝ} (hd : d.lInfinity < prm.absoluteFirstDerivativeTol) {fuel : Nat}
    {cand : Fin n → ℝ} {r} (h : lsLoop env prm x dx pre d pen (fuel + 1) 0 1 [] cand = .ok r) : r.1 = .firstOrderSatisfied := by
  have hn : nextAlpha prm.lineSearchStrategy prm.armijoSearchTau 0 pre d pen 1 [] = .ok (some 1) := by
    cases prm.lineSearchStrategy <;> rfl
  simp only [lsLoop, hn] at h
  split at h
  · cases h
  · split at h
    · cases h
    · rw [if_neg (real_valid _), if_pos hd] at h
      cases h; rfl

/-- **C119**. Without constraints, an iteration that starts with a cost below half of `absolute_first_derivative_tol`
does not move: `Solve` returns there, `SATISFIED_FIRST_ORDER_TOL`. -/
theorem C119_small_cost (env : Env n D ℝ) (hE : LDLTContract env.E) (hN : NSContract env.NE) (hp : WellPosed env.p n)
    (hi : env.p.ineq = []) (he : env.p.eqs = []) (prm : NLSParams ℝ) (x0 : Fin n → ℝ) (o o1 : env.Obj) (out : NLSOutputs ℝ)
    (calls : List (NLSIteration ℝ)) (h : solve env prm x0 o = .ok (o1, out, calls)) (k : Nat) (it : NLSIteration ℝ) (a : env.Obj)
    (hk : out.iterations[k]? = some it) (ha : After env prm x0 o k a) (hreg : 0 < it.lambda ∨ RegularAt env.p a.vars)
    (hsmall : 2 * costAt env.p a.vars < prm.absoluteFirstDerivativeTol) :
    out.termination = .satisfiedFirstOrderTol ∧ out.iterations.length = k + 1 ∧ o1.vars = a.vars := by
  obtain ⟨S, U, W, hv⟩ := solve_view h
  have hlt : k < out.iterations.length := (List.getElem?_eq_some_iff.mp hk).1
  have haS := (hv.after k hlt.le a).mp ha
  have P := hv.pass k hlt
  have hit : it = (W k).info := Option.some.inj (hk.symm.trans (hv.log k hlt))
  rw [hit, P.ilambda] at hreg
  rw [haS] at hreg hsmall ⊢
  obtain ⟨sol, hd, -⟩ := P.dir
  have m1 := direction_min hE hN hp hi (ob := { (S k).obj with qp := (W k).qp })
    (o1 := { (S k).obj with qp := (W k).qp, dx := (W k).dx, solver := sol }) P.lin hd P.notIndef (fun _ => hreg)
    (view_solver hv k hlt.le)
  obtain ⟨d1, d2⟩ := only_min_slope hp P.lin he m1
  have hpre : (W k).pre.f = costAt env.p (S k).obj.vars := by
    have := (linearize_facts hp P.lin).1
    rw [this]; rfl
  have hK : env.p.K = 0 := by simp [Problem.K, he]
  have h0 : (costDerivative (W k).qp (W k).dx).dEquality = 0 := by
    rw [(costDerivative_real _ _).2]
    exact Finset.sum_eq_zero fun k _ => absurd (lt_of_lt_of_eq k.isLt hK) (Nat.not_lt_zero _)
  have hlinf : (costDerivative (W k).qp (W k).dx).lInfinity < prm.absoluteFirstDerivativeTol := by
    unfold DirectionalDerivatives.lInfinity
    rw [h0, (costDerivative_real _ _).1, real_cmax]
    have e1 : ∀ v : ℝ, (Scalar.abs v : ℝ) = |v| := fun v => rfl
    rw [e1, e1, abs_zero, max_eq_left (abs_nonneg _), abs_of_nonpos d1]
    rw [← hpre] at hsmall
    dsimp only at d2
    linarith
  have hls := P.ls
  have hfuel : (prm.maxLineSearchIterations + 1).toNat = prm.maxLineSearchIterations.toNat + 1 := by
    have := hv.prmOk.maxLineSearchIterations
    omega
  rw [hfuel] at hls
  have hres : (W k).res = .firstOrderSatisfied := ls_first hlinf hls
  have hex : (W k).exit = some .satisfiedFirstOrderTol := by rw [P.exit, hres]; rfl
  have hU : U k = some .satisfiedFirstOrderTol := by
    rw [P.term, hex]
    unfold finish
    cases env.callback <;> rfl
  have hlen : out.iterations.length = k + 1 := by
    by_contra hne
    rw [hv.cont k (by omega)] at hU
    cases hU
  refine ⟨?_, hlen, ?_⟩
  · rcases hv.stop with ⟨_, _, hn, _⟩ | ⟨_, _, hT, _⟩ | ⟨_, _, hn, _⟩
    · rw [hn k hlt] at hU; cases hU
    · rw [hlen, Nat.add_sub_cancel, hU] at hT
      exact (Option.some.inj hT).symm
    · rw [hn k hlt] at hU; cases hU
  · rw [hv.vars, hlen, P.vars, hres, if_neg (by simp)]

/-- **C119** (the starting point). A start with so small a cost is returned unchanged, whatever the problem. -/
theorem C119_start (env : Env n D ℝ) (hE : LDLTContract env.E) (hN : NSContract env.NE) (hp : WellPosed env.p n)
    (hi : env.p.ineq = []) (he : env.p.eqs = []) (prm : NLSParams ℝ) (x0 : Fin n → ℝ) (o o1 : env.Obj) (out : NLSOutputs ℝ)
    (calls : List (NLSIteration ℝ)) (h : solve env prm x0 o = .ok (o1, out, calls)) (hm : 0 < prm.maxIterations)
    (hreg : 0 < prm.lambdaInitial ∨ RegularAt env.p x0) (hsmall : 2 * costAt env.p x0 < prm.absoluteFirstDerivativeTol) :
    out.termination = .satisfiedFirstOrderTol ∧ out.iterations.length = 1 ∧ o1.vars = x0 := by
  obtain ⟨S, U, W, hv⟩ := solve_view h
  have hlt : 0 < out.iterations.length := by
    rcases hv.stop with ⟨_, e1, _⟩ | ⟨_, h0, _⟩ | ⟨ht, _, _, qp, pre, ob1, res, hl, hd, hw, _⟩
    · omega
    · exact h0
    · exfalso
      have hkind := view_solver hv out.iterations.length le_rfl
      rcases stepDirection_cases hd with ⟨_, _, _, _, _, _, _, h2, _⟩ | ⟨s, _, _, h1, _⟩
      · rw [h2] at hw; cases hw
      · exact (hkind.mp ⟨s, h1⟩).2 he
  have hlog := hv.log 0 hlt
  have ha : After env prm x0 o 0 (S 0).obj := (hv.after 0 (Nat.zero_le _) _).mpr rfl
  have hS : (S 0).obj.vars = x0 := by rw [hv.start]; rfl
  have hl : (W 0).info.lambda = prm.lambdaInitial := by rw [(hv.pass 0 hlt).ilambda, hv.start]; rfl
  have := C119_small_cost env hE hN hp hi he prm x0 o o1 out calls h 0 _ _ hlog ha (by rw [hl, hS]; exact hreg) (by rw [hS]; exact hsmall)
  rw [hS] at this
  exact this

/-- **C119** (the last improvement). Every iteration that improves anything started with at least half of
`absolute_first_derivative_tol` as its cost - whatever `absolute_exit_tol` asks for. -/
theorem C119_last_improvement (env : Env n D ℝ) (hE : LDLTContract env.E) (hN : NSContract env.NE) (hp : WellPosed env.p n)
    (hi : env.p.ineq = []) (he : env.p.eqs = []) (prm : NLSParams ℝ) (x0 : Fin n → ℝ) (o o1 : env.Obj) (out : NLSOutputs ℝ)
    (calls : List (NLSIteration ℝ)) (h : solve env prm x0 o = .ok (o1, out, calls)) (k : Nat) (it : NLSIteration ℝ) (a b : env.Obj)
    (hk : out.iterations[k]? = some it) (ha : After env prm x0 o k a) (hb : After env prm x0 o (k + 1) b)
    (hreg : 0 < it.lambda ∨ RegularAt env.p a.vars) (hmoved : b.vars ≠ a.vars) :
    prm.absoluteFirstDerivativeTol ≤ 2 * costAt env.p a.vars := by
  by_contra hc
  push Not at hc
  obtain ⟨h1, h2, h3⟩ := C119_small_cost env hE hN hp hi he prm x0 o o1 out calls h k it a hk ha hreg hc
  obtain ⟨S, U, W, hv⟩ := solve_view h
  have hbS := (hv.after (k + 1) (by omega) b).mp hb
  rw [hv.vars, h2, ← hbS] at h3
  exact hmoved h3

end MiniOpt.Props
