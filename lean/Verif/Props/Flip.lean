import Verif.Spec.FlipSpec
import Verif.Props.Coordinates
import Verif.Props.QPUnits
import Verif.Props.FirstOrder

/-!
# C129: renumbering, reversing and shifting the variables of a problem with bounds
-/

set_option autoImplicit false

namespace MiniOpt.Props

open MiniOpt MiniOpt.Spec MiniOpt.NLS

/-- A solve reports the summary of the multipliers it returns. -/
theorem lagrange_of_solveLoop {N M K : Nat} (E : Eigen N K ℝ) (p : QP N M K ℝ) (prm : QPParams ℝ) : ∀ (n : Nat) (st : IPState N M K ℝ)
    (mu : ℝ) (log : List (QPIteration ℝ)) (r : IPState N M K ℝ × QPOutputs ℝ), IP.solveLoop E p prm n st mu log = .ok r →
    r.2.lagrange = IP.lagrangeSummary r.1.v.y := by
  intro n
  induction n with
  | zero =>
    intro st mu log r h
    cases h; rfl
  | succ n ih =>
    intro st mu log r h
    unfold IP.solveLoop at h
    split at h
    · cases h
    · dsimp only at h
      split_ifs at h
      · cases h; rfl
      · exact ih _ _ _ _ h

theorem lagrange_of_solve {N M K : Nat} {E : Eigen N K ℝ} {p : QP N M K ℝ} {prm : QPParams ℝ} {st : IPState N M K ℝ}
    {r : IPState N M K ℝ × QPOutputs ℝ} (h : IP.solve E p prm st = .ok r) : r.2.lagrange = IP.lagrangeSummary r.1.v.y := by
  obtain ⟨hc, st0, h0, hl⟩ := IP.solve_ok h
  exact lagrange_of_solveLoop _ _ _ _ _ _ _ _ hl

section qp

variable {D M K : Nat} (σ : Fin D ≃ Fin D) (s : Fin D → Bool)

/-- The reversals as units of a QP. -/
noncomputable def flipUnits (M K : Nat) : Units D M K where
  γ := 1
  d i := sgn (s i)
  e _ := 1
  t _ := 1
  γ_pos := one_pos
  d_ne i := by cases h : s i <;> simp [sgn]
  e_ne _ := one_ne_zero
  t_pos _ := one_pos

theorem flipUnits_signs : OnlySigns (flipUnits s M K) :=
  ⟨rfl, fun _ => rfl, fun i => by show |sgn (s i)| = 1; cases h : s i <;> simp [sgn], fun _ => abs_one⟩

theorem flip_single (j : Fin D) : flip σ s (Pi.single j 1) = sgn (s (σ.symm j)) • Pi.single (σ.symm j) 1 := by
  funext i
  show sgn (s i) * (Pi.single j 1 : Fin D → ℝ) (σ i) = sgn (s (σ.symm j)) * (Pi.single (σ.symm j) 1 : Fin D → ℝ) i
  by_cases h : σ i = j
  · subst h; simp
  · have : i ≠ σ.symm j := fun h' => h (by rw [h']; simp)
    rw [Pi.single_eq_of_ne h, Pi.single_eq_of_ne this]; simp

/-- What relates two QPs that are each other's image under `flip`, with their constraints listed in different orders. -/
structure FlipQP (κ : Equiv.Perm (Fin K)) (ε : Equiv.Perm (Fin M)) (p p' : QP D M K ℝ) : Prop where
  c : ∀ e : Fin D → ℝ, ∑ i, p'.c i * e i = ∑ i, p.c i * flip σ s e i
  quad : ∀ e : Fin D → ℝ, bil p' e e = bil p (flip σ s e) (flip σ s e)
  A : ∀ (k : Fin K) (e : Fin D → ℝ), ∑ j, p'.A k j * e j = ∑ j, p.A (κ k) j * flip σ s e j
  b : ∀ k, p'.b k = p.b (κ k)
  var : ∀ m, (p'.con m).var = σ (p.con (ε m)).var
  a : ∀ m, (p'.con m).a = (p.con (ε m)).a * sgn (s (p.con (ε m)).var)
  off : ∀ m, (p'.con m).b = (p.con (ε m)).b

variable {σ s}

theorem bil_single {N : Nat} (p : QP N M K ℝ) (i j : Fin N) : bil p (Pi.single i 1) (Pi.single j 1) = Gsym p i j := by
  unfold bil
  rw [Finset.sum_eq_single i, Finset.sum_eq_single j]
  · simp
  · intro l _ h; simp [h]
  · intro h; exact absurd (Finset.mem_univ _) h
  · intro l _ h; simp [h]
  · intro h; exact absurd (Finset.mem_univ _) h

theorem bil_smul {N : Nat} (p : QP N M K ℝ) (a b : ℝ) (u v : Fin N → ℝ) : bil p (a • u) (b • v) = a * b * bil p u v := by
  unfold bil
  rw [Finset.mul_sum]
  refine Finset.sum_congr rfl fun i _ => ?_
  rw [Finset.mul_sum]
  refine Finset.sum_congr rfl fun j _ => ?_
  simp only [Pi.smul_apply, smul_eq_mul]
  ring

theorem FlipQP.bil {κ : Equiv.Perm (Fin K)} {ε : Equiv.Perm (Fin M)} {p p' : QP D M K ℝ} (h : FlipQP σ s κ ε p p') (u v : Fin D → ℝ) :
    Props.bil p' u v = Props.bil p (flip σ s u) (flip σ s v) := by
  have h1 := h.quad (fun i => u i + 1 * v i)
  have e : flip σ s (fun i => u i + 1 * v i) = fun i => flip σ s u i + 1 * flip σ s v i := by
    have : (fun i => u i + 1 * v i) = u + v := by funext i; simp
    rw [this, map_add]; funext i; simp
  rw [e, bil_expand, bil_expand, h.quad u, h.quad v] at h1
  linarith

theorem FlipQP.relabelled {κ : Equiv.Perm (Fin K)} {ε : Equiv.Perm (Fin M)} {p p' : QP D M K ℝ} (h : FlipQP σ s κ ε p p') :
    Relabelled σ.symm κ ε (QPInUnits (flipUnits s M K) p) p' := by
  refine ⟨fun i j => ?_, fun i => ?_, fun k i => ?_, fun k => ?_, fun m => ?_, fun m => ?_, fun m => ?_⟩
  · rw [← bil_single p', h.bil, flip_single, flip_single, bil_smul, bil_single, units_G]
    show _ = 1 * (sgn _ * _ * sgn _)
    ring
  · have := h.c (Pi.single i 1)
    rw [flip_single] at this
    simp only [Pi.smul_apply, smul_eq_mul] at this
    rw [Finset.sum_eq_single i (fun l _ hl => by simp [hl]) (fun h => absurd (Finset.mem_univ _) h),
      Finset.sum_eq_single (σ.symm i) (fun l _ hl => by simp [hl]) (fun h => absurd (Finset.mem_univ _) h)] at this
    simp only [Pi.single_eq_same, mul_one] at this
    show _ = 1 * (sgn _ * _)
    rw [this]; ring
  · have := h.A k (Pi.single i 1)
    rw [flip_single] at this
    simp only [Pi.smul_apply, smul_eq_mul] at this
    rw [Finset.sum_eq_single i (fun l _ hl => by simp [hl]) (fun h => absurd (Finset.mem_univ _) h),
      Finset.sum_eq_single (σ.symm i) (fun l _ hl => by simp [hl]) (fun h => absurd (Finset.mem_univ _) h)] at this
    simp only [Pi.single_eq_same, mul_one] at this
    show _ = 1 * (p.A (κ k) _ * sgn _)
    rw [this]; ring
  · show _ = 1 * p.b (κ k)
    rw [h.b]; ring
  · rw [h.var, Equiv.symm_apply_apply]; rfl
  · rw [h.a]; show _ = 1 * ((p.con (ε m)).a * sgn (s (p.con (ε m)).var)); ring
  · rw [h.off]; show _ = 1 * (p.con (ε m)).b; ring

theorem FlipQP.null {κ : Equiv.Perm (Fin K)} {ε : Equiv.Perm (Fin M)} {p p' : QP D M K ℝ} (h : FlipQP σ s κ ε p p') (e : Fin D → ℝ) : NullDir p' e ↔ NullDir p (flip σ s e) :=
  ⟨fun hn k => by have := hn (κ.symm k); rwa [h.A, κ.apply_symm_apply] at this, fun hn k => by rw [h.A]; exact hn (κ k)⟩

theorem FlipQP.posDef {κ : Equiv.Perm (Fin K)} {ε : Equiv.Perm (Fin M)} {p p' : QP D M K ℝ} (h : FlipQP σ s κ ε p p') (hp : PosDefOnNull p) : PosDefOnNull p' := by
  intro e he hn
  have := hp (flip σ s e) (fun h0 => he ((flip σ s).map_eq_zero_iff.mp h0)) ((h.null e).mp hn)
  have hq : Props.bil p' e e = _ := h.quad e
  exact lt_of_lt_of_eq this hq.symm

theorem FlipQP.rows {κ : Equiv.Perm (Fin K)} {ε : Equiv.Perm (Fin M)} {p p' : QP D M K ℝ} (h : FlipQP σ s κ ε p p') (hp : IndependentRows p) : IndependentRows p' := by
  intro y hy
  have key := hp (fun k => y (κ.symm k)) fun j => ?_
  · funext k
    have := congrFun key (κ k)
    simpa using this
  have h1 := hy (σ j)
  rw [← Equiv.sum_comp κ]
  simp only [Equiv.symm_apply_apply]
  have e : ∀ k, p'.A k (σ j) = p.A (κ k) j * sgn (s j) := by
    intro k
    rw [h.relabelled.A k (σ j)]
    show 1 * (p.A (κ k) (σ.symm (σ j)) * sgn (s (σ.symm (σ j)))) = _
    rw [Equiv.symm_apply_apply, one_mul]
  simp only [e] at h1
  have h2 : sgn (s j) * ∑ k, p.A (κ k) j * y k = 0 := by
    rw [← h1, Finset.mul_sum]
    exact Finset.sum_congr rfl fun k _ => by ring
  have h3 : sgn (s j) * (sgn (s j) * ∑ k, p.A (κ k) j * y k) = 0 := by rw [h2, mul_zero]
  rwa [← mul_assoc, sgn_sq, one_mul] at h3

/-- Two solves of QPs that are each other's image end at points that are each other's image, with the same outputs. -/
theorem flip_solve {E E' : Eigen D K ℝ} (hE : LDLTContract E) (hE' : LDLTContract E') {κ : Equiv.Perm (Fin K)} {ε : Equiv.Perm (Fin M)} {p p' : QP D M K ℝ} (h : FlipQP σ s κ ε p p')
    (hp : PosDefOnNull p) (hA : IndependentRows p) (hbox : ∃ w : Fin D → ℝ, ∀ m, 0 ≤ ineqVal p w m) {prm : QPParams ℝ}
    (hg : prm.initialGuessMethod ≠ .userProvided) {st st' : IPState D M K ℝ}
    {r r' : IPState D M K ℝ × QPOutputs ℝ} (hs : IP.solve E p prm (IP.setupState st) = .ok r)
    (hs' : IP.solve E' p' prm (IP.setupState st') = .ok r') : r.1.v.x = flip σ s r'.1.v.x ∧ r'.2 = r.2 := by
  have hR := hp.regular hA
  have h1 := solve_exact hE hR (fun _ => hp) (setupState_WF st) (.inl hg) hs
  have h2 := solve_exact hE' ((h.posDef hp).regular (h.rows hA)) (fun _ => h.posDef hp) (setupState_WF st') (.inl hg) hs'
  have hbox' : ∃ w : Fin D → ℝ, ∀ m, 0 ≤ ineqVal (QPInUnits (flipUnits s M K) p) w m := by
    obtain ⟨w, hw⟩ := hbox
    refine ⟨fun i => sgn (s i) * w i, fun m => ?_⟩
    have e : ineqVal (QPInUnits (flipUnits s M K) p) (fun i => sgn (s i) * w i) m = ineqVal p w m := by
      show 1 * ((p.con m).a * sgn (s (p.con m).var)) * (sgn (s (p.con m).var) * w (p.con m).var) + 1 * (p.con m).b
        = (p.con m).a * w (p.con m).var + (p.con m).b
      have := sgn_sq (s (p.con m).var)
      have e2 : 1 * ((p.con m).a * sgn (s (p.con m).var)) * (sgn (s (p.con m).var) * w (p.con m).var)
        = (p.con m).a * w (p.con m).var * (sgn (s (p.con m).var) * sgn (s (p.con m).var)) := by ring
      rw [e2, this]; ring
    rw [e]; exact hw m
  rcases solve_rel (exactEigen_respects σ.symm κ) h.relabelled prm (fun _ => hbox') (fun hu => absurd hu hg)
    (setupState_WF st) (setupState_WF st') with ⟨f, a, a', e1, e2⟩ | ⟨a, a', e1, e2, hv, ho⟩
  · rw [h2] at e2; cases e2
  · rw [h2] at e2
    cases e2
    obtain ⟨q1, q2, q3⟩ := C120_signs (flipUnits s M K) (flipUnits_signs s) exactEigen exactEigen exactEigen_contract
      exactEigen_contract p hR prm (IP.setupState st) (IP.setupState st) (.setup st) (.setup st) (.inl hg) (fun _ => hp)
      (fun hu => absurd hu hg) r a h1 e1
    have hx : ∀ i, r.1.v.x i = sgn (s i) * a.1.v.x i := by
      intro i
      rw [q3]
      show _ = sgn (s i) * (r.1.v.x i / sgn (s i))
      have : sgn (s i) ≠ 0 := (flipUnits s M K).d_ne i
      field_simp
    have hy : a.1.v.y = r.1.v.y := by
      rw [q3]; funext k
      show 1 * r.1.v.y k / 1 = _
      simp
    refine ⟨?_, ?_⟩
    · funext i
      show _ = sgn (s i) * r'.1.v.x (σ i)
      rw [hv, hx i]
      show _ = sgn (s i) * a.1.v.x (σ.symm (σ i))
      rw [Equiv.symm_apply_apply]
    · rw [ho]
      have l1 := lagrange_of_solve h1
      have l2 := lagrange_of_solve e1
      rw [hy] at l2
      obtain ⟨a1, a2, a3, a4⟩ := a
      obtain ⟨r1, r2, r3, r4⟩ := r
      dsimp only at *
      rw [q1, q2, l1, l2]

end qp

/-! ## The nonlinear solve -/

section nls

variable {D : Nat} {T : (Fin D → ℝ) → Fin D → ℝ} {A : (Fin D → ℝ) → (Fin D → ℝ) ≃ₗ[ℝ] (Fin D → ℝ)}

/-- One iteration, when the directions and the multipliers correspond. -/
theorem same_pass_of {env env' : Env D D ℝ} (h : SameProblem env env' T A)
    (hp : WellPosed env.p D) (hp' : WellPosed env'.p D)
    {prm : NLSParams ℝ} {k : Nat} {s s1 : Loop env} {s' s1' : Loop env'} {t t' : Option NLSTermination}
    {w : PassData env} {w' : PassData env'} (hs : Linked T s s') (P : Pass env prm k s s1 t w) (P' : Pass env' prm k s' s1' t' w')
    (hiso : s.lambda ≤ 0 ∨ Isometric A) (hdx : w.dx = A s'.obj.vars w'.dx)
    (hmult : env.p.eqs ≠ [] → multipliers w'.out = multipliers w.out) :
    Linked T s1 s1' ∧ t' = t ∧ withoutQP w'.info = withoutQP w.info := by
  have hl := P.lin
  have hl' := P'.lin
  rw [hs.vars] at hl
  rw [hs.lambda] at hl'
  obtain ⟨hpre, htw, -⟩ := twin_of_linearize h hp hp' s'.obj.vars s.lambda hl hl'
  have htw := htw hiso
  have hder : costDerivative w'.qp w'.dx = costDerivative w.qp w.dx := by rw [twin_derivative htw, hdx]
  have hpen : s1'.penalty = s1.penalty := by
    rw [P.penalty, P'.penalty, hs.penalty]
    unfold raisePenalty
    by_cases hne : env.p.eqs = []
    · rw [if_neg (by simpa using (same_nil h).mpr hne), if_neg (by simpa using hne)]
    · have hne' : env'.p.eqs ≠ [] := fun e => hne ((same_nil h).mp e)
      have hsel : ∀ ρ, selectPenalty w'.qp w'.dx (multipliers w.out) ρ = selectPenalty w.qp w.dx (multipliers w.out) ρ := by
        intro ρ
        cases multipliers w.out with
        | some l => rfl
        | none => rw [twin_penalty htw, hdx]
      rw [if_pos hne, if_pos hne', hmult hne, hsel]
  have hls := P.ls
  have hls' := P'.ls
  rw [hs.vars, hdx] at hls
  rw [hpre, hder, hdx, hpen] at hls'
  obtain ⟨r1, r2, r3⟩ := same_search h prm s'.obj.vars w'.dx w.pre _ s1.penalty _ _ _ _ _ _ _ _ hls hls'
  dsimp only at r1 r2 r3
  have hst : s1'.obj.state = s1.obj.state := by rw [P.state, P'.state, hs.state, r1]
  have hlam : s1'.lambda = s1.lambda := by rw [P.lambda, P'.lambda, hs.state, hs.lambda, r1]
  have hex : w'.exit = w.exit := by rw [P.exit, P'.exit, r1, r2, hpre, hpen, hlam]
  have hinfo : withoutQP w'.info = withoutQP w.info := by
    have a1 := P.iiter; have b1 := P'.iiter
    have a2 := P.istate; have b2 := P'.istate
    have a3 := P.ilambda; have b3 := P'.ilambda
    have a4 := P.ipre; have b4 := P'.ipre
    have a5 := P.ideriv; have b5 := P'.ideriv
    have a6 := P.ipenalty; have b6 := P'.ipenalty
    have a7 := P.ires; have b7 := P'.ires
    have a8 := P.isteps; have b8 := P'.isteps
    rw [hst] at b2; rw [hs.lambda] at b3; rw [hpre] at b4; rw [hder] at b5; rw [hpen] at b6; rw [r1] at b7; rw [r2] at b8
    generalize w.info = u at *
    generalize w'.info = v at *
    obtain ⟨u1, u2, u3, u4, u5, u6, u7, u8, u9, u10⟩ := u
    obtain ⟨v1, v2, v3, v4, v5, v6, v7, v8, v9, v10⟩ := v
    dsimp only at *
    unfold withoutQP
    dsimp only
    rw [a1, b1, a2, b2, a3, b3, a4, b4, a5, b5, a6, b6, a7, b7, a8, b8]
  obtain ⟨c1, c2⟩ := same_finish h.callback hinfo w.exit hs.calls
  refine ⟨⟨?_, hlam, hpen, hst, ?_, ?_⟩, ?_, hinfo⟩
  · rw [P.vars, P'.vars, r1]
    split_ifs with hres
    · exact r3 hres
    · exact hs.vars
  · rw [P.log, P'.log, List.map_append, List.map_append, hs.log, List.map_cons, List.map_cons, hinfo]
  · rw [P.calls, P'.calls, hex]; exact c1
  · rw [P.term, P'.term, hex]; exact c2


end nls

section main

variable {D : Nat} {σ : Fin D ≃ Fin D} {s : Fin D → Bool} {t : Fin D → ℝ}

theorem flip_isometric (σ : Fin D ≃ Fin D) (s : Fin D → Bool) :
    Isometric (fun _ : Fin D → ℝ => flip σ s) := by
  intro y e
  show ∑ i, (sgn (s i) * e (σ i)) ^ 2 = _
  rw [← Equiv.sum_comp σ fun i => e i ^ 2]
  refine Finset.sum_congr rfl fun i _ => ?_
  rw [mul_pow, sq (sgn (s i)), sgn_sq, one_mul]

/-- `flip_solve` for QPs whose dimensions are only known to be equal. -/
theorem flip_solve_cast {M K M' K' : Nat} (τ : Fin K' ≃ Fin K) (ε : Fin M' ≃ Fin M) {E : Eigen D K ℝ} {E' : Eigen D K' ℝ} (hE : LDLTContract E)
    (hE' : LDLTContract E') {p : QP D M K ℝ} {p' : QP D M' K' ℝ}
    (hc : ∀ e : Fin D → ℝ, ∑ i, p'.c i * e i = ∑ i, p.c i * flip σ s e i)
    (hq : ∀ e : Fin D → ℝ, bil p' e e = bil p (flip σ s e) (flip σ s e))
    (hb : ∀ k, p'.b k = p.b (τ k)) (hr : ∀ k (e : Fin D → ℝ), ∑ j, p'.A k j * e j = ∑ j, p.A (τ k) j * flip σ s e j)
    (hcon : ∀ m, (p'.con m).var = σ (p.con (ε m)).var ∧ (p'.con m).a = (p.con (ε m)).a * sgn (s (p.con (ε m)).var) ∧
      (p'.con m).b = (p.con (ε m)).b)
    (hp : PosDefOnNull p) (hA : IndependentRows p) (hbox : ∃ w : Fin D → ℝ, ∀ m, 0 ≤ ineqVal p w m) {prm : QPParams ℝ}
    (hg : prm.initialGuessMethod ≠ .userProvided) {st : IPState D M K ℝ} {st' : IPState D M' K' ℝ}
    {r : IPState D M K ℝ × QPOutputs ℝ} {r' : IPState D M' K' ℝ × QPOutputs ℝ} (hs : IP.solve E p prm (IP.setupState st) = .ok r)
    (hs' : IP.solve E' p' prm (IP.setupState st') = .ok r') : r.1.v.x = flip σ s r'.1.v.x ∧ r'.2 = r.2 := by
  obtain rfl : K' = K := by simpa using Fintype.card_congr τ
  obtain rfl : M' = M := by simpa using Fintype.card_congr ε
  exact flip_solve hE hE' (κ := τ) (ε := ε) ⟨hc, hq, hr, hb, fun m => (hcon m).1, fun m => (hcon m).2.1, fun m => (hcon m).2.2⟩ hp hA hbox
    hg hs hs'

theorem info_ext {u v : NLSIteration ℝ} (h : withoutQP u = withoutQP v) (hq : u.qpOutputs = v.qpOutputs) :
    withoutEigenvalues u = withoutEigenvalues v := by
  have e : ∀ x : NLSIteration ℝ, withoutEigenvalues x = { withoutQP x with qpOutputs := x.qpOutputs } := fun x => rfl
  rw [e u, e v, h, hq]

theorem boundAt_flip {c : Ineq ℝ} (h : 0 ≤ c.var ∧ c.var < (D : Int)) (y : Fin D → ℝ) :
    boundAt (flippedBound σ s t c) y = boundAt c (flipMap σ s t y) := by
  unfold flippedBound
  rw [dif_pos h]
  have hlt := (σ ⟨c.var.toNat, by omega⟩).isLt
  unfold boundAt
  rw [dif_pos (by dsimp only; omega), dif_pos h]
  dsimp only
  have e : (⟨(((σ ⟨c.var.toNat, by omega⟩).val : Nat) : Int).toNat, by omega⟩ : Fin D) = σ ⟨c.var.toNat, by omega⟩ :=
    Fin.ext (Int.toNat_natCast _)
  rw [e]
  show _ = c.a * (sgn _ * y _ + t _) + c.b
  ring

/-- The two QPs of one iteration have corresponding solutions. -/
theorem flip_direction {env env' : Env D D ℝ} (h : SameProblem env env' (flipMap σ s t) (fun _ => flip σ s))
    (hin : (env.p.ineq.map (flippedBound σ s t)).Perm env'.p.ineq)
    (hE : LDLTContract env.E) (hE' : LDLTContract env'.E) (hp : WellPosed env.p D) (hp' : WellPosed env'.p D)
    (hbox : BoundsConsistent env.p D)
    {prm : NLSParams ℝ} {k : Nat} {S S1 : Loop env} {S' S1' : Loop env'} {u u' : Option NLSTermination}
    {w : PassData env} {w' : PassData env'} (hs : Linked (flipMap σ s t) S S') (P : Pass env prm k S S1 u w)
    (P' : Pass env' prm k S' S1' u' w') (hns : ¬ ∃ z, S.obj.solver = .ns z) (hns' : ¬ ∃ z, S'.obj.solver = .ns z)
    (hreg : 0 < S.lambda ∨ RegularAt env.p S.obj.vars) (hind : EqualitiesIndependentAt env.p S.obj.vars) :
    w.dx = flip σ s w'.dx ∧ w'.out = w.out := by
  have hl := P.lin
  have hl' := P'.lin
  have hpos := fun d : Fin D → ℝ => form_pos hp hl hreg d
  obtain ⟨-, -, f3, f4, f5, -⟩ := linearize_facts hp hl
  obtain ⟨-, -, -, -, f5', -⟩ := linearize_facts hp' hl'
  rw [hs.vars] at hl
  rw [hs.lambda] at hl'
  obtain ⟨-, htw, -⟩ := twin_of_linearize h hp hp' S'.obj.vars S.lambda hl hl'
  have htw := htw (.inr (flip_isometric σ s))
  obtain ⟨τ, hb, hr⟩ := htw.rows
  obtain ⟨ε0, hε0⟩ := perm_equiv hin
  let ε : Fin env'.p.M ≃ Fin env.p.M := ε0.trans (finCongr (List.length_map ..))
  have hε : ∀ m : Fin env'.p.M, env'.p.ineq.get m = flippedBound σ s t (env.p.ineq.get (ε m)) := fun m => by
    rw [hε0 m]
    simp [ε]
  obtain ⟨sol, hd, -⟩ := P.dir
  obtain ⟨sol', hd', -⟩ := P'.dir
  have hprm : qpParams env'.p prm = qpParams env.p prm := by
    unfold qpParams
    by_cases he : env.p.eqs = []
    · rw [if_neg (by simpa using (same_nil h).mpr he), if_neg (by simpa using he)]
    · rw [if_pos (fun e => he ((same_nil h).mp e)), if_pos he]
  have hg : (qpParams env.p prm).initialGuessMethod ≠ .userProvided := by
    unfold qpParams
    dsimp only
    split_ifs <;> simp
  rcases stepDirection_cases hd with ⟨hc, z, z1, q, e1, -, e2, e3, e4⟩ | ⟨z, z1, tt, e1, -⟩
  swap
  · exact absurd ⟨z, e1⟩ hns
  rcases stepDirection_cases hd' with ⟨hc', z', z1', q', e1', -, e2', e3', e4'⟩ | ⟨z', z1', tt', e1', -⟩
  swap
  · exact absurd ⟨z', e1'⟩ hns'
  rw [hprm] at e2'
  dsimp only at e2 e2' e4 e4' hc hc'
  have hvar : ∀ m : Fin env.p.M, 0 ≤ (env.p.ineq.get m).var ∧ (env.p.ineq.get m).var < (D : Int) := fun m =>
    ⟨(hp.ineq _ (List.get_mem _ _)).1, (hp.ineq _ (List.get_mem _ _)).2.1⟩
  have key := flip_solve_cast (σ := σ) (s := s) τ ε hE hE' (p := w.qp.typed hc) (p' := w'.qp.typed hc') htw.c htw.quad hb hr
    (fun m => ?_) (fun d hd0 _ => hpos d hd0) (fun y hy => ?_) ?_ hg e2 e2'
  · obtain ⟨a1, a2⟩ := key
    exact ⟨by rw [e4, e4']; exact a1, by rw [e3, e3']; exact congrArg _ a2⟩
  · -- the constraints
    have hv := hvar (ε m)
    have g1 := f5 (ε m)
    have g2 := f5' m
    have g3 : env'.p.ineq.get m = flippedBound σ s t (env.p.ineq.get (ε m)) := hε m
    rw [g3, boundAt_flip hv, ← hs.vars] at g2
    unfold flippedBound at g2
    rw [dif_pos hv] at g2
    have i1 : ((w.qp.typed hc).con (ε m)).var = ⟨(env.p.ineq.get (ε m)).var.toNat, by omega⟩ :=
      Fin.ext (by show (w.qp.con (ε m)).var.toNat = _; rw [g1])
    refine ⟨?_, ?_, ?_⟩
    · rw [i1]
      refine Fin.ext ?_
      show (w'.qp.con m).var.toNat = _
      rw [g2]
      exact Int.toNat_natCast _
    · rw [i1]
      show (w'.qp.con m).a = (w.qp.con (ε m)).a * _
      rw [g1, g2]
    · show (w'.qp.con m).b = (w.qp.con (ε m)).b
      rw [g1, g2]
  · -- the rows
    obtain ⟨d, hd0⟩ := hind (List.ofFn fun k => y k + w.qp.b k) (by simp)
    rw [← f3] at hd0
    have hd1 := List.ofFn_injective hd0
    have hd2 : ∀ k, ∑ j, w.qp.A k j * d j = y k := fun k => by
      have := congrFun hd1 k
      linarith
    have hz : ∑ k, y k ^ 2 = 0 := by
      calc ∑ k, y k ^ 2 = ∑ k, ∑ j, d j * (w.qp.A k j * y k) := by
            refine Finset.sum_congr rfl fun k _ => ?_
            rw [sq]
            nth_rw 1 [← hd2 k]
            rw [Finset.sum_mul]
            exact Finset.sum_congr rfl fun j _ => by ring
        _ = ∑ j, d j * ∑ k, w.qp.A k j * y k := by
            rw [Finset.sum_comm]
            exact Finset.sum_congr rfl fun j _ => by rw [Finset.mul_sum]
        _ = 0 := Finset.sum_eq_zero fun j _ => by
            have : ∑ k, w.qp.A k j * y k = 0 := hy j
            rw [this, mul_zero]
    have := (Finset.sum_eq_zero_iff_of_nonneg fun k _ => sq_nonneg (y k)).mp hz
    funext k
    exact pow_eq_zero_iff (two_ne_zero) |>.mp (this k (Finset.mem_univ k))
  · -- the box
    obtain ⟨v, hv⟩ := hbox
    refine ⟨fun i => v i - S.obj.vars i, fun m => ?_⟩
    have g1 := f5 m
    have h0 := hv _ (List.get_mem env.p.ineq m)
    have hvm := hvar m
    have e : ineqVal (w.qp.typed hc) (fun i => v i - S.obj.vars i) m = boundAt (env.p.ineq.get m) v := by
      have i1 : ((w.qp.typed hc).con m).var = ⟨(env.p.ineq.get m).var.toNat, by omega⟩ :=
        Fin.ext (by show (w.qp.con m).var.toNat = _; rw [g1])
      unfold ineqVal
      rw [i1]
      show (w.qp.con m).a * _ + (w.qp.con m).b = _
      rw [g1]
      unfold boundAt
      rw [dif_pos hvm, dif_pos hvm]
      ring
    rw [e]; exact h0

/-- **C129** (with bounds: renumbering, reversing and shifting the variables). The same problem, with at least one bound, in
variables `y` where the old variable `i` is `± y (σ i) + t i`: if at every iteration the Hessian is positive definite and the equality
constraints independent, the two solves go through corresponding points and log exactly the same numbers - including everything the QP
solver reports (only the eigenvalues, logged on request, are left out). -/
theorem C129_flip (env env' : Env D D ℝ) (σ : Fin D ≃ Fin D) (s : Fin D → Bool) (t : Fin D → ℝ)
    (hsame : SameProblem env env' (flipMap σ s t) (fun _ => flip σ s))
    (hin : (env.p.ineq.map (flippedBound σ s t)).Perm env'.p.ineq) (hne : env.p.ineq ≠ [])
    (hE : LDLTContract env.E) (hE' : LDLTContract env'.E) (hp : WellPosed env.p D) (hp' : WellPosed env'.p D)
    (hbox : BoundsConsistent env.p D)
    (prm : NLSParams ℝ) (y0 : Fin D → ℝ) (o o1 : env.Obj) (o' o1' : env'.Obj) (out out' : NLSOutputs ℝ)
    (calls calls' : List (NLSIteration ℝ)) (h : solve env prm (flipMap σ s t y0) o = .ok (o1, out, calls))
    (h' : solve env' prm y0 o' = .ok (o1', out', calls'))
    (hreg : ∀ k it a, out.iterations[k]? = some it → After env prm (flipMap σ s t y0) o k a →
      (0 < it.lambda ∨ RegularAt env.p a.vars) ∧ EqualitiesIndependentAt env.p a.vars) :
    o1.vars = flipMap σ s t o1'.vars ∧ out'.termination = out.termination ∧ out'.iterations.map withoutEigenvalues = out.iterations.map withoutEigenvalues ∧
    calls'.map withoutQP = calls.map withoutQP := by
  have hne' : env'.p.ineq ≠ [] := fun e => hne (by rw [e] at hin; simpa using hin.eq_nil)
  obtain ⟨S, U, W, hv⟩ := solve_view h
  obtain ⟨S', U', W', hv'⟩ := solve_view h'
  have hns : ∀ k, k ≤ out.iterations.length → ¬ ∃ z, (S k).obj.solver = .ns z := fun k hk hz =>
    hne ((view_solver hv k hk).mp hz).1
  have hns' : ∀ k, k ≤ out'.iterations.length → ¬ ∃ z, (S' k).obj.solver = .ns z := fun k hk hz =>
    hne' ((view_solver hv' k hk).mp hz).1
  have key : ∀ k, k ≤ out.iterations.length → k ≤ out'.iterations.length →
      Linked (flipMap σ s t) (S k) (S' k) ∧ ∀ j, j < k → U' j = U j ∧ withoutEigenvalues (W' j).info = withoutEigenvalues (W j).info := by
    intro k
    induction k with
    | zero =>
      intro _ _
      rw [hv.start, hv'.start]
      exact ⟨⟨rfl, rfl, rfl, rfl, rfl, rfl⟩, fun j hj => by omega⟩
    | succ k ih =>
      intro hk hk'
      obtain ⟨hlk, hU⟩ := ih (by omega) (by omega)
      have P := hv.pass k (by omega)
      have P' := hv'.pass k (by omega)
      have hlog := hv.log k (by omega)
      obtain ⟨r1, r2⟩ := hreg k _ _ hlog ((hv.after k (by omega) _).mpr rfl)
      rw [P.ilambda] at r1
      obtain ⟨d1, d2⟩ := flip_direction hsame hin hE hE' hp hp' hbox hlk P P' (hns k (by omega)) (hns' k (by omega)) r1 r2
      obtain ⟨q1, q2, q3⟩ := same_pass_of hsame hp hp' hlk P P' (.inr (flip_isometric σ s)) d1 (fun _ => by rw [d2])
      refine ⟨q1, fun j hj => ?_⟩
      rcases Nat.lt_succ_iff_lt_or_eq.mp hj with h1 | rfl
      · exact hU j h1
      · refine ⟨q2, ?_⟩
        have i1 := P.iout
        have i2 := P'.iout
        exact info_ext q3 (by rw [i2, i1, d2])
  have hlen : out'.iterations.length = out.iterations.length := by
    rcases Nat.lt_trichotomy out.iterations.length out'.iterations.length with hlt | he | hgt
    · exfalso
      obtain ⟨hlk, hU⟩ := key out.iterations.length le_rfl hlt.le
      rcases hv.stop with ⟨_, e1, _⟩ | ⟨_, hpos, e1, _⟩ | ⟨_, _, _, qp, pre, ob1, res, hl, hd, hw, _⟩
      · have := hv'.le; omega
      · have e2 := (hU (out.iterations.length - 1) (by omega)).1
        rw [e1, hv'.cont (out.iterations.length - 1) (by omega)] at e2
        cases e2
      · rcases stepDirection_cases hd with ⟨hc, z, z1, q, e1, -, e2, e3, e4⟩ | ⟨z, z1, tt, e1, -⟩
        · rw [e3] at hw; cases hw
        · exact hns _ le_rfl ⟨z, e1⟩
    · exact he.symm
    · exfalso
      obtain ⟨hlk, hU⟩ := key out'.iterations.length hgt.le le_rfl
      rcases hv'.stop with ⟨_, e1, _⟩ | ⟨_, hpos, e1, _⟩ | ⟨_, _, _, qp, pre, ob1, res, hl, hd, hw, _⟩
      · have := hv.le; omega
      · have e2 := (hU (out'.iterations.length - 1) (by omega)).1
        rw [e1, hv.cont (out'.iterations.length - 1) (by omega)] at e2
        cases e2
      · rcases stepDirection_cases hd with ⟨hc, z, z1, q, e1, -, e2, e3, e4⟩ | ⟨z, z1, tt, e1, -⟩
        · rw [e3] at hw; cases hw
        · exact hns' _ le_rfl ⟨z, e1⟩
  obtain ⟨hlk, hU⟩ := key out.iterations.length le_rfl hlen.ge
  refine ⟨?_, ?_, ?_, ?_⟩
  · rw [hv.vars, hv'.vars, hlen]; exact hlk.vars
  · have hs' := hv'.stop
    rw [hlen] at hs'
    rcases hv.stop with ⟨t1, e1, n1, _⟩ | ⟨_, hpos, e1, _⟩ | ⟨t1, lt1, n1, _⟩ <;>
      rcases hs' with ⟨t2, e2, n2, _⟩ | ⟨_, hpos2, e2, _⟩ | ⟨t2, lt2, n2, _⟩
    · rw [t1, t2]
    · have := (hU (out.iterations.length - 1) (by omega)).1
      rw [e2, n1 _ (by omega)] at this; cases this
    · omega
    · have := (hU (out.iterations.length - 1) (by omega)).1
      rw [e1, n2 _ (by omega)] at this; cases this
    · have := (hU (out.iterations.length - 1) (by omega)).1
      rw [e1, e2] at this
      exact Option.some.inj this
    · have := (hU (out.iterations.length - 1) (by omega)).1
      rw [e1, n2 _ (by omega)] at this; cases this
    · omega
    · have := (hU (out.iterations.length - 1) (by omega)).1
      rw [e2, n1 _ (by omega)] at this; cases this
    · rw [t1, t2]
  · refine List.ext_getElem? fun k => ?_
    rcases Nat.lt_or_ge k out.iterations.length with hk | hk
    · rw [List.getElem?_map, List.getElem?_map, hv.log k hk, hv'.log k (by omega), Option.map_some, Option.map_some, (hU k hk).2]
    · rw [List.getElem?_map, List.getElem?_map, List.getElem?_eq_none hk, List.getElem?_eq_none (by omega)]
  · rw [hv.calls, hv'.calls, hlen]; exact hlk.calls

theorem flipped_wellPosed {p : Problem D ℝ} (hp : WellPosed p D) (σ : Fin D ≃ Fin D) (s : Fin D → Bool) (t : Fin D → ℝ) :
    WellPosed (⟨p.costs.map (rewrittenResidual (flip σ s) t), p.ineq.map (flippedBound σ s t),
      p.eqs.map (rewrittenResidual (flip σ s) t)⟩ : Problem D ℝ) D := by
  have h := rewritten_wellPosed hp (flip σ s) t
  refine ⟨h.idx, h.idxD, h.distinct, h.consistent, fun c hc => ?_⟩
  obtain ⟨c0, h0, rfl⟩ := List.mem_map.mp hc
  have := hp.ineq c0 h0
  unfold flippedBound
  rw [dif_pos ⟨this.1, this.2.1⟩]
  have hlt := (σ ⟨c0.var.toNat, by omega⟩).isLt
  dsimp only
  omega

/-- **C129** (any problem). Any problem with a bound, rewritten in renumbered, reversed and shifted variables and solved with the default
retraction. -/
theorem C129_any (env env' : Env D D ℝ) (σ : Fin D ≃ Fin D) (s : Fin D → Bool) (t : Fin D → ℝ)
    (hpr : env'.p = ⟨env.p.costs.map (rewrittenResidual (flip σ s) t), env.p.ineq.map (flippedBound σ s t),
      env.p.eqs.map (rewrittenResidual (flip σ s) t)⟩)
    (hR : env.retraction = none) (hR' : env'.retraction = none) (hcb : SameCallback env.callback env'.callback)
    (hne : env.p.ineq ≠ []) (hE : LDLTContract env.E) (hE' : LDLTContract env'.E) (hp : WellPosed env.p D)
    (hbox : BoundsConsistent env.p D)
    (prm : NLSParams ℝ) (y0 : Fin D → ℝ) (o o1 : env.Obj) (o' o1' : env'.Obj) (out out' : NLSOutputs ℝ)
    (calls calls' : List (NLSIteration ℝ)) (h : solve env prm (flipMap σ s t y0) o = .ok (o1, out, calls))
    (h' : solve env' prm y0 o' = .ok (o1', out', calls'))
    (hreg : ∀ k it a, out.iterations[k]? = some it → After env prm (flipMap σ s t y0) o k a →
      (0 < it.lambda ∨ RegularAt env.p a.vars) ∧ EqualitiesIndependentAt env.p a.vars) :
    o1.vars = flipMap σ s t o1'.vars ∧ out'.termination = out.termination ∧
    out'.iterations.map withoutEigenvalues = out.iterations.map withoutEigenvalues ∧
    calls'.map withoutQP = calls.map withoutQP := by
  have hc : env'.p.costs = env.p.costs.map (rewrittenResidual (flip σ s) t) := by rw [hpr]
  have he : env'.p.eqs = env.p.eqs.map (rewrittenResidual (flip σ s) t) := by rw [hpr]
  have hT : flipMap σ s t = affineMap (flip σ s) t := rfl
  refine C129_flip env env' σ s t ⟨?_, ?_, ?_, hcb⟩ (by rw [hpr]) hne hE hE' hp (by rw [hpr]; exact flipped_wellPosed hp σ s t) hbox prm
    y0 o o1 o' o1' out out' calls calls' h h' hreg
  · rw [hc, hT]; exact ⟨_, forall2_map fun r _ => rewritten_same _ t r, .refl _⟩
  · rw [he, hT]; exact ⟨_, forall2_map fun r _ => rewritten_same _ t r, .refl _⟩
  · intro y e a x z hx hz
    unfold retract at hx hz
    rw [hR] at hx
    rw [hR'] at hz
    simp only [dite_true, Fin.cast_eq_self, Except.ok.injEq] at hx hz
    subst hx hz
    funext i
    show sgn (s i) * y (σ i) + t i + sgn (s i) * e (σ i) * a = sgn (s i) * (y (σ i) + e (σ i) * a) + t i
    ring

end main

end MiniOpt.Props
