import Verif.Props.Coordinates
import Verif.Props.EqOrder
import Verif.Props.Totality

/-! If a solve returns, so does the solve of the same problem in other coordinates (C101, C130). -/

set_option autoImplicit false

namespace MiniOpt.Props

open MiniOpt MiniOpt.Spec MiniOpt.NLS

variable {n m D : Nat}

/-- Independence of the rows does not depend on the coordinates or the order. -/
theorem twin_independent {M K M' K' : Nat} {B : (Fin D → ℝ) ≃ₗ[ℝ] (Fin D → ℝ)} {q : QPData D M K ℝ} {q' : QPData D M' K' ℝ}
    (h : SameRows B q q') (hi : RowsIndependent q.A) : RowsIndependent q'.A := by
  obtain ⟨τ, -, hrows⟩ := h
  intro y' hy'
  have h1 : ∀ e : Fin D → ℝ, ∑ k, y' k * ∑ j, q'.A k j * e j = 0 := by
    intro e
    have : ∑ k, y' k * ∑ j, q'.A k j * e j = ∑ j, e j * ∑ k, q'.A k j * y' k := by
      simp only [Finset.mul_sum]
      rw [Finset.sum_comm]
      exact Finset.sum_congr rfl fun j _ => Finset.sum_congr rfl fun k _ => by ring
    rw [this]
    exact Finset.sum_eq_zero fun j _ => by rw [hy' j, mul_zero]
  have h2 : (fun k => y' (τ.symm k)) = 0 := by
    refine hi _ fun j => ?_
    have := h1 (B.symm (Pi.single j 1))
    simp only [hrows, LinearEquiv.apply_symm_apply] at this
    rw [← τ.sum_comp]
    simp only [Equiv.symm_apply_apply]
    rw [← this]
    refine Finset.sum_congr rfl fun k _ => ?_
    rw [Finset.sum_eq_single j (fun b _ hb => by rw [Pi.single_eq_of_ne hb, mul_zero]) (fun hj => absurd (Finset.mem_univ j) hj)]
    rw [Pi.single_eq_same]; ring
  funext k
  have := congrFun h2 (τ k)
  simpa using this

/-- The null space solver returns for the second problem if it does for the first. -/
theorem same_direction_ns {env : Env n D ℝ} {env' : Env m D ℝ} {T : (Fin m → ℝ) → Fin n → ℝ}
    {A : (Fin m → ℝ) → (Fin D → ℝ) ≃ₗ[ℝ] (Fin D → ℝ)} (h : SameProblem env env' T A)
    (hN : NSContract env.NE) (hN' : NSContract env'.NE) (hp : WellPosed env.p n) (hp' : WellPosed env'.p m)
    {prm : NLSParams ℝ} {ob o1 : env.Obj} {ob' : env'.Obj} {res : QPResult ℝ} {y : Fin m → ℝ} {lam : ℝ}
    {q0 : QPData D env.p.M env.p.K ℝ} {q0' : QPData D env'.p.M env'.p.K ℝ} {pre pre' : Errors ℝ}
    (hl : linearize env.p (T y) lam q0 = .ok (ob.qp, pre)) (hl' : linearize env'.p y lam q0' = .ok (ob'.qp, pre'))
    (hd : stepDirection env prm ob = .ok (o1, res)) {z : NSState D ℝ} (hz : ob.solver = .ns z)
    {z' : NSState D ℝ} (hz' : ob'.solver = .ns z') :
    ∃ o1' out' st', stepDirection env' prm ob' = .ok (o1', out') ∧ o1'.solver = .ns st' := by
  obtain ⟨-, -, hrows, -⟩ := twin_of_linearize h hp hp' y lam hl hl'
  rcases stepDirection_cases hd with ⟨_, s, _, q, h1, -⟩ | ⟨s, s1, t, h1, -, hs, -, -⟩
  · rw [hz] at h1; cases h1
  · have hK : 0 < env.p.K := by
      by_contra h0
      unfold NS.solve at hs
      rw [if_pos h0] at hs
      cases hs
    have hind : RowsIndependent ob.qp.A := by
      by_contra hdep
      obtain ⟨tag, h2⟩ := (C27_needs_independent_rows env.NE hN.qr
        (⟨ob.qp.G, ob.qp.c, ob.qp.A, ob.qp.b, Fin.elim0⟩ : QP D 0 env.p.K ℝ) s).2.1 hK hdep
      rw [h2] at hs; cases hs
    have hind' := twin_independent hrows hind
    obtain ⟨τ, -⟩ := hrows
    have hK' : 0 < env'.p.K := by
      have := Fintype.card_congr τ
      simp only [Fintype.card_fin] at this
      omega
    obtain ⟨-, ⟨st', t'⟩, hr⟩ := (C27_needs_independent_rows env'.NE hN'.qr
      (⟨ob'.qp.G, ob'.qp.c, ob'.qp.A, ob'.qp.b, Fin.elim0⟩ : QP D 0 env'.p.K ℝ) z').2.2.1 hK' hind'
    unfold stepDirection
    simp only [hz']
    rw [hr]
    cases t' with
    | success => exact ⟨_, _, st', rfl, rfl⟩
    | notPositiveDefinite => exact ⟨_, _, st', rfl, rfl⟩

/-- **C101** (whether the solve returns). If the solve of the first problem returns, no function of the user throws in the second one,
and the second factorization never reports failure, then the solve of the second problem returns. -/
theorem C101_returns (env : Env n D ℝ) (env' : Env m D ℝ) (T : (Fin m → ℝ) → Fin n → ℝ)
    (A : (Fin m → ℝ) → (Fin D → ℝ) ≃ₗ[ℝ] (Fin D → ℝ)) (hsame : SameProblem env env' T A)
    (hE : LDLTContract env.E) (hE' : LDLTContract env'.E) (hN : NSContract env.NE) (hN' : NSContract env'.NE)
    (hp : WellPosed env.p n) (hp' : WellPosed env'.p m) (hi : env.p.ineq = []) (hi' : env'.p.ineq = [])
    (hr' : m = D ∨ env'.retraction ≠ none) (hthrow : ¬ UserThrows env') 
    (hfac : ∀ H, env'.E.ldltInverse H ≠ none)    (prm : NLSParams ℝ) (hpen : 0 < prm.equalityPenaltyInitial)
    (y0 : Fin m → ℝ) (o o1 : env.Obj) (o' : env'.Obj) (out : NLSOutputs ℝ) (calls : List (NLSIteration ℝ))
    (h : solve env prm (T y0) o = .ok (o1, out, calls))
    (hreg : env.p.eqs = [] → ∀ k it a, out.iterations[k]? = some it → After env prm (T y0) o k a →
      0 < it.lambda ∨ RegularAt env.p a.vars)
    (hlam : Isometric A ∨ ∀ it ∈ out.iterations, it.lambda ≤ 0) :
    ∃ o1' out' calls', solve env' prm y0 o' = .ok (o1', out', calls') := by
  obtain ⟨S, U, W, hv⟩ := solve_view h
  have hprm := hv.prmOk
  have hsame' := same_nil hsame
  have hstart : Good env' (start env' prm y0 o') := by
    refine ⟨hpen, ?_⟩
    unfold start chooseSolver
    dsimp only
    by_cases hu : env'.p.ineq = [] ∧ env'.p.eqs ≠ []
    · left
      refine ⟨hu, ?_⟩
      rw [if_pos hu]
      cases o'.solver <;> exact ⟨_, rfl⟩
    · right
      refine ⟨hu, ?_⟩
      rw [if_neg hu]
      cases o'.solver <;> exact ⟨_, rfl⟩
  -- the first problem's direction at the head of pass `k`, when there is one
  have hdir : ∀ k, k < out.iterations.length ∨ (k = out.iterations.length ∧ out.termination = .qpIndefinite) →
      ∃ qp pre o1 res, linearize env.p (S k).obj.vars (S k).lambda (S k).obj.qp = .ok (qp, pre) ∧
        stepDirection env prm { (S k).obj with qp := qp } = .ok (o1, res) ∧
        (wasIndefinite res = true ↔ ¬ k < out.iterations.length) := by
    rintro k (hk | ⟨rfl, hq⟩)
    · have P := hv.pass k hk
      obtain ⟨sol, hd, -⟩ := P.dir
      exact ⟨_, _, _, _, P.lin, hd, by simp [P.notIndef, hk]⟩
    · rcases hv.stop with ⟨e, -⟩ | ⟨e, -⟩ | ⟨-, -, -, qp, pre, ob1, res, hl, hd, hw, -⟩
      · rw [hq] at e; cases e
      · exact absurd hq e
      · exact ⟨qp, pre, ob1, res, hl, hd, by simp [hw]⟩
  have hkind : ∀ k, k ≤ out.iterations.length → ∀ s' : Loop env', Good env' s' →
      ((∃ z, (S k).obj.solver = .ns z) ↔ ∃ z, s'.obj.solver = .ns z) := by
    intro k hk s' hg
    rw [view_solver hv k hk]
    have e1 : (∃ z, s'.obj.solver = .ns z) ↔ env'.p.ineq = [] ∧ env'.p.eqs ≠ [] := by
      rcases hg.kind with ⟨hu, hz⟩ | ⟨hu, z, hz⟩
      · exact ⟨fun _ => hu, fun _ => hz⟩
      · constructor
        · rintro ⟨z', hz'⟩
          rw [hz] at hz'; cases hz'
        · exact fun hu' => absurd hu' hu
    rw [e1, hi, hi', Ne, Ne, hsame']
  have hbody : ∀ k, k < out.iterations.length ∨ (k = out.iterations.length ∧ out.termination = .qpIndefinite) →
      ∀ s' : Loop env', Linked T (S k) s' → Good env' s' →
        ∃ s1' t', body env' prm k s' = .ok (s1', t') ∧ Good env' s1' := by
    intro k hk s' hlk hg
    have := body_total_gen hp' hr' hprm k hg (T := fun _ => False) (fun _ _ hu => hthrow hu) ?_
    · rcases this with h1 | ⟨_, _, hF⟩
      · exact h1
      · exact hF.elim
    · intro qp' pre' hl'
      obtain ⟨qp, pre, ob1, res, hl, hd, -⟩ := hdir k hk
      rw [hlk.vars] at hl
      rw [hlk.lambda] at hl'
      rcases hg.kind with ⟨hu, z', hz'⟩ | ⟨hu, hz'⟩
      · obtain ⟨z, hz⟩ := (hkind k (by omega) s' hg).mpr ⟨z', hz'⟩
        obtain ⟨q1, q2, q3, q4, q5⟩ := same_direction_ns hsame hN hN' hp hp' (ob := { (S k).obj with qp := qp })
          (ob' := { s'.obj with qp := qp' }) hl hl' hd hz hz'
        exact .inl ⟨q1, q2, q4, .inl ⟨hu, q3, q5⟩⟩
      · rcases stepDirection_total (o := s'.obj) hp' (fun c hc => by rw [hi'] at hc; cases hc) hprm hl' rfl hg.kind with h1 | ⟨e, h1, ht⟩
        · exact .inl h1
        · exfalso
          rcases ht with ⟨_, _, H, hH⟩ | ⟨hu', _⟩ | ⟨hu', _⟩ | ⟨_, hu'⟩
          · exact hfac H hH
          · exact hu hu'
          · exact hu hu'
          · exact hthrow hu'
  have hloop : ∀ f k (s' : Loop env'), k ≤ out.iterations.length → k + f = prm.maxIterations.toNat → (∀ j, j < k → U j = none) →
      Linked T (S k) s' → Good env' s' → ∃ r, loop env' prm f k s' = .ok r := by
    intro f
    induction f with
    | zero => intro k s' _ _ _ _ _; exact ⟨_, rfl⟩
    | succ f ih =>
      intro k s' hk hf hU hlk hg
      have hk2 : k < out.iterations.length ∨ (k = out.iterations.length ∧ out.termination = .qpIndefinite) := by
        rcases hk.lt_or_eq with h1 | h1
        · exact .inl h1
        · refine .inr ⟨h1, ?_⟩
          rcases hv.stop with ⟨_, e, _⟩ | ⟨_, hpos, e, _⟩ | ⟨e, _⟩
          · omega
          · rw [hU _ (by omega)] at e; cases e
          · exact e
      obtain ⟨s1', t', hb, hg1⟩ := hbody k hk2 s' hlk hg
      unfold loop
      rw [hb]
      cases t' with
      | some t' => exact ⟨_, rfl⟩
      | none =>
        rcases body_ok hb with ⟨_, _, _, _, _, _, _, _, ht⟩ | ⟨w', P'⟩
        · cases ht
        obtain ⟨qp, pre, ob1, res, hl, hd, hind⟩ := hdir k hk2
        obtain ⟨sol', hd', -⟩ := P'.dir
        have hl' := P'.lin
        have hl2 := hl
        rw [hlk.vars] at hl2
        rw [hlk.lambda] at hl'
        have hsi := same_indefinite hsame hN hN' hp hp' (ob := { (S k).obj with qp := qp }) hl2 hl' hd hd' (hkind k hk s' hg)
        rw [P'.notIndef] at hsi
        have hk3 : k < out.iterations.length := by
          by_contra hc
          rw [hind.mpr hc] at hsi
          cases hsi
        have P := hv.pass k hk3
        have hlog := hv.log k hk3
        obtain ⟨q1, q2, -⟩ := same_pass hsame hE hE' hN hN' hp hp' hi hi' hlk P P'
          (fun he => by
            have := hreg he k _ _ hlog ((hv.after k hk _).mpr rfl)
            rwa [P.ilambda] at this)
          (by
            rcases hlam with h1 | h1
            · exact .inr h1
            · have := h1 _ (List.mem_of_getElem? hlog)
              rw [P.ilambda] at this
              exact .inl this)
          (view_solver hv k hk) (by rw [← hkind k hk s' hg, view_solver hv k hk, hi, hi', Ne, Ne, hsame'])
        refine ih (k + 1) s1' hk3 (by omega) (fun j hj => ?_) q1 hg1
        rcases Nat.lt_succ_iff_lt_or_eq.mp hj with h1 | rfl
        · exact hU j h1
        · exact q2.symm
  obtain ⟨⟨s, t⟩, hs⟩ := hloop prm.maxIterations.toNat 0 (start env' prm y0 o') (Nat.zero_le _) (Nat.zero_add _) (fun j hj => by omega)
    (by rw [hv.start]; exact ⟨rfl, rfl, rfl, rfl, rfl, rfl⟩) hstart
  unfold solve
  rw [(checkParams_iff prm).mpr hprm]
  dsimp only
  rw [hs]
  exact ⟨_, _, _, rfl⟩

/-- **C130** (whether the solve returns). If the solve of the first problem returns, no function of the user throws in the second one,
and the second factorization never reports failure, then the solve of the second problem returns. -/
theorem C130_returns (env env' : Env n D ℝ) (hc : env.p.costs.Perm env'.p.costs) (hi : env.p.ineq.Perm env'.p.ineq)
    (he : env.p.eqs.Perm env'.p.eqs) (hR : env'.retraction = env.retraction)
    (hcb : SameCallback env.callback env'.callback) (hE : LDLTContract env.E) (hE' : LDLTContract env'.E) (hN : NSContract env.NE)
    (hN' : NSContract env'.NE) (hp : WellPosed env.p n) (hr : n = D ∨ env.retraction ≠ none) (ha : ∀ c ∈ env.p.ineq, c.a ≠ 0)
    (hthrow : ¬ UserThrows env') (hfac : ∀ H, env'.E.ldltInverse H ≠ none) (prm : NLSParams ℝ)
    (hpen : 0 < prm.equalityPenaltyInitial) (x0 : Fin n → ℝ) (o o1 : env.Obj) (o' : env'.Obj) (out : NLSOutputs ℝ)
    (calls : List (NLSIteration ℝ)) (h : solve env prm x0 o = .ok (o1, out, calls))
    (hreg : env.p.eqs = [] → ∀ k it a, out.iterations[k]? = some it → After env prm x0 o k a →
      0 < it.lambda ∨ RegularAt env.p a.vars) :
    ∃ o1' out' calls', solve env' prm x0 o' = .ok (o1', out', calls') := by
  have hr' : n = D ∨ env'.retraction ≠ none := by rw [hR]; exact hr
  by_cases h0 : env.p.ineq = []
  · have h0' : env'.p.ineq = [] := by rw [h0] at hi; simpa using hi.symm.eq_nil
    exact C101_returns env env' id (fun _ => LinearEquiv.refl ℝ _) (same_problem_perm hc he hR hcb) hE hE' hN hN' hp
      (perm_wellPosed hp hc hi he) h0 h0' hr' hthrow hfac prm hpen x0 o o1 o' out calls h hreg (.inl fun _ _ => rfl)
  · have h0' : env'.p.ineq ≠ [] := fun e => h0 (by rw [e] at hi; simpa using hi.eq_nil)
    obtain ⟨S, U, W, hv⟩ := solve_view h
    rcases C65_nls_exceptions env' (perm_wellPosed hp hc hi he) hr' (fun c hc' => ha c (hi.mem_iff.mpr hc')) prm hv.prmOk hpen x0 o' with
      ⟨⟨o1', out', calls'⟩, h'⟩ | ⟨e, _, ht⟩
    · exact ⟨_, _, _, h'⟩
    · exfalso
      rcases ht with ⟨_, _, H, hH⟩ | ⟨hu, _⟩ | ⟨hu, _⟩ | ⟨_, hu⟩
      · exact hfac H hH
      · exact h0' hu.1
      · exact h0' hu.1
      · exact hthrow hu

section example_

open MiniOpt.DemoReal

/-- Two equality constraints in reverse order: the second run returns because the first does. -/
example (x0 : Fin 2 → ℝ) : ∃ (o1' : twoFree'.Obj) (out' : NLSOutputs ℝ) (calls' : List (NLSIteration ℝ)),
    solve twoFree' dp x0 (mkObj _) = .ok (o1', out', calls') := by
  obtain ⟨o1, out, calls, h, -⟩ := twoFree_run x0
  exact C130_returns twoFree twoFree' (.refl _) (.refl _) (.swap ..) rfl trivial exactEigen_contract exactEigen_contract
    exactNS_contract exactNS_contract twoFree_ok (.inl rfl) (fun c hc => by cases hc)
    (mkEnv_quiet (by never_throws)) exactEigen_total dp dp_penalty x0 _ o1 _ out calls h fun hn => absurd hn (by simp [twoFree, mkEnv])

end example_

end MiniOpt.Props
