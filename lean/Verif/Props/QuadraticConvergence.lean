import Verif.Lemmas.GaussNewton
import Verif.Spec.BasinSpec
import Verif.Props.AnyUserCode

/-!
# C88: quadratic convergence near a solution with zero residual
-/

set_option autoImplicit false

namespace MiniOpt.Props

open MiniOpt.Spec MiniOpt.NLS MiniOpt.GN

variable {D : Nat}

/-- If the full step gives sufficient decrease, it is the only trial. -/
theorem full_step (env : Env D D ℝ) (hr : env.retraction = none) (hp : WellPosed env.p D)
    (he : env.p.eqs = []) (prm : NLSParams ℝ) (x0 : Fin D → ℝ) (o o' : env.Obj) (out : NLSOutputs ℝ)
    (calls : List (NLSIteration ℝ)) (h : solve env prm x0 o = .ok (o', out, calls)) (k : Nat) (it : NLSIteration ℝ)
    (hit : out.iterations[k]? = some it) (a b : env.Obj) (ha : After env prm x0 o k a) (hb : After env prm x0 o (k + 1) b)
    (hneg : it.directionalDerivatives.dF ≤ 0)
    (hdec : costAt env.p (fun i => a.vars i + b.dx i) ≤ costAt env.p a.vars + it.directionalDerivatives.dF / 10 ^ 4) :
    (∃ st, it.lineSearchSteps = [st] ∧ st.alpha = 1 ∧ st.errors = errorsAt env.p (fun i => a.vars i + b.dx i)) ∧
    it.errorsInitial = errorsAt env.p a.vars ∧
    ((it.stepResult = .success ∧ b.vars = fun i => a.vars i + b.dx i) ∨
      (it.stepResult = .firstOrderSatisfied ∧ b.vars = a.vars ∧
        |it.directionalDerivatives.dF| < prm.absoluteFirstDerivativeTol)) := by
  have hmem := List.mem_of_getElem? hit
  obtain ⟨h1, h2, h3⟩ := C38_direction env prm x0 o o' out calls h k it hit a b ha hb
  obtain ⟨f1, f2, f3, f4, f5, f6⟩ := linearize_facts hp h1
  have hK : env.p.K = 0 := by simp [Problem.K, he]
  have noK : ∀ {P : Prop}, Fin env.p.K → P := fun k => absurd (lt_of_lt_of_eq k.isLt hK) (Nat.not_lt_zero _)
  have hd := costDerivative_real b.qp b.dx
  rw [← h2] at hd
  have hdE : it.directionalDerivatives.dEquality = 0 := by
    rw [hd.2]
    refine Finset.sum_eq_zero fun k _ => ?_
    exact noK k
  have htot : ∀ pen, it.directionalDerivatives.total pen = it.directionalDerivatives.dF := by
    intro pen; unfold DirectionalDerivatives.total; rw [hdE]; ring
  have hviol : ∀ x : Fin D → ℝ, violationAt env.p x = 0 := by
    intro x; unfold violationAt; rw [he]; rfl
  obtain ⟨hne, -, hfirst, -⟩ := C40_alphas_any env prm x0 o o' out calls h it hmem
  obtain ⟨hrejected, hsucc⟩ := C40_only_last_accepted env prm x0 o o' out calls h it hmem
  obtain ⟨S, T, W, hv⟩ := solve_view h
  obtain ⟨hlt, hinfo, hpass⟩ := view_info hv hit
  obtain ⟨htr, hout, -⟩ := lsLoop_start _ _ _ _ _ _ _ _ _ _ _ _ hpass.ls
  have hsteps : it.lineSearchSteps = (W k).steps := by rw [hinfo]; exact hpass.isteps
  obtain ⟨st, hst⟩ : ∃ st, it.lineSearchSteps[0]? = some st :=
    ⟨_, List.getElem?_eq_getElem hne⟩
  have hst1 := hfirst st hst
  have hax : (S k).obj = a := ((hv.after k (by omega) a).mp ha).symm
  have hbx : (S (k + 1)).obj = b := ((hv.after (k + 1) (by omega) b).mp hb).symm
  have hret : ∃ c, retract env a.vars b.dx 1 = .ok c ∧ evalErrors env.p c = .ok st.errors := by
    obtain ⟨c, hc1, hc2⟩ := htr.entry st (by rw [← hsteps]; exact List.mem_of_getElem? hst)
    rw [hst1, ← hpass.dx, hax, hbx] at hc1
    exact ⟨c, hc1, hc2⟩
  obtain ⟨c, hc1, hc2⟩ := hret
  have hmv := retract_moves hc1
  unfold Moves at hmv
  rw [hr] at hmv
  obtain ⟨_, hc⟩ := hmv
  have hc' : c = fun i => a.vars i + b.dx i := by rw [hc]; funext i; simp
  have herr : st.errors = errorsAt env.p (fun i => a.vars i + b.dx i) := by
    rw [← hc']; exact ((evalErrors_ok_iff env.p c _).mp hc2).2
  have harm : st.errors.total it.penalty ≤ it.errorsInitial.total it.penalty
      + it.directionalDerivatives.total it.penalty * st.alpha * armijoC1 := by
    rw [htot, hst1, herr, f1]
    unfold Errors.total errorsAt armijoC1
    simp only [hviol, real_lit]
    push_cast
    linarith
  have hlen : it.lineSearchSteps = [st] := by
    have hl1 : ¬ 1 < it.lineSearchSteps.length := by
      intro hl
      exact (hrejected 0 st hl hst).2 harm
    cases hL : it.lineSearchSteps with
    | nil => rw [hL] at hst; cases hst
    | cons s0 rest =>
      rw [hL] at hst hl1
      simp only [List.length_cons] at hl1
      have : rest = [] := List.length_eq_zero_iff.mp (by omega)
      subst this
      simp at hst
      rw [hst]
  have hlast : it.lineSearchSteps.getLast? = some st := by rw [hlen]; rfl
  obtain ⟨hm1, hm2⟩ := C38_variables_move env prm x0 o o' out calls h k it hit a b ha hb
  refine ⟨⟨st, hlen, hst1, herr⟩, f1, ?_⟩
  by_cases hsmall : it.directionalDerivatives.lInfinity < prm.absoluteFirstDerivativeTol
  · right
    have hgap : |it.directionalDerivatives.dF| < prm.absoluteFirstDerivativeTol := by
      unfold DirectionalDerivatives.lInfinity at hsmall
      rw [hdE] at hsmall
      simp only [real_cmax, real_abs, abs_zero] at hsmall
      exact lt_of_le_of_lt (le_max_left _ 0) hsmall
    have hres : it.stepResult = .firstOrderSatisfied := by
      have hf := hout.facts
      have hres' : it.stepResult = (W k).res := by rw [hinfo]; exact hpass.ires
      have hd' : costDerivative (W k).qp (W k).dx = it.directionalDerivatives := by rw [hinfo]; exact hpass.ideriv.symm
      have hmem' : st ∈ (W k).steps := by rw [← hsteps, hlen]; simp
      rw [hd'] at hf
      rw [hres']
      cases hr' : (W k).res with
      | firstOrderSatisfied => rfl
      | success =>
        obtain ⟨_, _, _, hn, _⟩ := hf.success hr'
        exact absurd hsmall hn
      | maxIterations => exact absurd hsmall ((hf.maxIter hr').2 st hmem').notFirstOrder
      | positiveDerivative =>
        obtain ⟨_, _, _, hn, _⟩ := hf.positive hr'
        exact absurd hsmall hn
      | failureNonFiniteCost =>
        obtain ⟨_, _, hn⟩ := hf.nonFinite hr'
        exact absurd hn (real_valid _)
      | failureInvalidAlpha => exact absurd hsmall ((hf.invalidAlpha hr').2.1 st hmem').notFirstOrder
    exact ⟨hres, hm2 (by rw [hres]; simp), hgap⟩
  · left
    have hs : it.stepResult = .success :=
      hsucc.mpr ⟨st, hlast, real_valid _, hsmall, by rw [htot]; exact not_lt.mpr hneg, harm⟩
    refine ⟨hs, ?_⟩
    obtain ⟨st', hst', hmv⟩ := hm1 hs
    rw [hlast] at hst'
    cases hst'
    unfold Moves at hmv
    rw [hr, hst1] at hmv
    obtain ⟨_, hvars⟩ := hmv
    rw [hvars]; funext i; simp

theorem dist2_vec (x y : Fin D → ℝ) : dist2 x y = ‖vec (fun i => x i - y i)‖ := by
  unfold dist2
  rw [← vec_norm, Real.sqrt_sq (norm_nonneg _)]

theorem dist2_nonneg (x y : Fin D → ℝ) : 0 ≤ dist2 x y := Real.sqrt_nonneg _

theorem sqrt_le {a b : ℝ} (_ha : 0 ≤ a) (hb : 0 ≤ b) (h : a ^ 2 ≤ b ^ 2) : a ≤ b := by nlinarith

theorem basin_model {p : Problem D ℝ} {xs : Fin D → ℝ} {ρ σ L : ℝ} (B : Basin p xs ρ σ L) {x y : Fin D → ℝ}
    (hx : dist2 x xs ≤ ρ) (hy : dist2 y xs ≤ ρ) :
    ‖stack p (fun r => valueAt r y) - stack p (fun r => valueAt r x) - jac p x (vec fun i => y i - x i)‖
      ≤ L / 2 * dist2 x y ^ 2 := by
  refine sqrt_le (norm_nonneg _) (mul_nonneg (by linarith [B.nonneg]) (sq_nonneg _)) ?_
  rw [jac_vec, stack_sub, stack_sub, stack_norm]
  exact B.model x y hx hy

theorem basin_stretch {p : Problem D ℝ} {xs : Fin D → ℝ} {ρ σ L : ℝ} (B : Basin p xs ρ σ L) {x : Fin D → ℝ}
    (hx : dist2 x xs ≤ ρ) (d : EuclideanSpace ℝ (Fin D)) : σ * ‖d‖ ≤ ‖jac p x d‖ := by
  refine sqrt_le (mul_nonneg B.pos.le (norm_nonneg _)) (norm_nonneg _) ?_
  have h1 := B.stretch x hx d.ofLp
  rw [← stack_norm, ← vec_norm] at h1
  rw [mul_pow]
  exact h1

theorem basin_zero {p : Problem D ℝ} {xs : Fin D → ℝ} {ρ σ L : ℝ} (B : Basin p xs ρ σ L) :
    stack p (fun r => valueAt r xs) = 0 := by
  ext s
  exact B.zero _ (List.get_mem _ _) _

theorem dist2_self (x : Fin D → ℝ) : dist2 x x = 0 := by simp [dist2]

theorem dist2_comm (x y : Fin D → ℝ) : dist2 x y = dist2 y x := by
  unfold dist2; congr 1; exact Finset.sum_congr rfl fun i _ => by ring

/-- The residual at a point of the basin and the model of it seen from there. -/
theorem basin_at {p : Problem D ℝ} {xs : Fin D → ℝ} {ρ σ L : ℝ} (B : Basin p xs ρ σ L) {x : Fin D → ℝ}
    (hx : dist2 x xs ≤ ρ) :
    ‖jac p x (vec fun i => x i - xs i) - stack p (fun r => valueAt r x)‖ ≤ L / 2 * ‖vec fun i => x i - xs i‖ ^ 2 ∧
    L / 2 * ‖vec fun i => x i - xs i‖ ≤ σ * (1 / 4) ∧
    3 / 4 * σ * dist2 x xs ≤ ‖stack p (fun r => valueAt r x)‖ := by
  have h1 := basin_model B hx (by rw [dist2_self]; exact B.radius : dist2 xs xs ≤ ρ)
  rw [basin_zero B, zero_sub, dist2_vec] at h1
  have e : vec (fun i => xs i - x i) = - vec (fun i => x i - xs i) := by
    ext i; simp [vec]
  rw [e, map_neg] at h1
  have e2 : -stack p (fun r => valueAt r x) - -jac p x (vec fun i => x i - xs i)
      = jac p x (vec fun i => x i - xs i) - stack p (fun r => valueAt r x) := by abel
  rw [e2] at h1
  have h2 : L / 2 * ‖vec fun i => x i - xs i‖ ≤ σ * (1 / 4) := by
    rw [← dist2_vec]
    have := B.small
    have := mul_le_mul_of_nonneg_left hx B.nonneg
    linarith
  refine ⟨h1, h2, ?_⟩
  have h3 := basin_stretch B hx (vec fun i => x i - xs i)
  have h4 : ‖jac p x (vec fun i => x i - xs i)‖ ≤ ‖stack p (fun r => valueAt r x)‖
      + ‖jac p x (vec fun i => x i - xs i) - stack p (fun r => valueAt r x)‖ := by
    have e3 : jac p x (vec fun i => x i - xs i) = stack p (fun r => valueAt r x)
      + (jac p x (vec fun i => x i - xs i) - stack p (fun r => valueAt r x)) := by abel
    calc _ = ‖_‖ := by rw [← e3]
      _ ≤ _ := norm_add_le _ _
  rw [dist2_vec]
  nlinarith [norm_nonneg (vec fun i => x i - xs i)]

/-- One iteration inside the basin. -/
theorem basin_iteration (env : Env D D ℝ) (hE : LDLTContract env.E) (hr : env.retraction = none) (hp : WellPosed env.p D)
    (hi : env.p.ineq = []) (he : env.p.eqs = []) {xs : Fin D → ℝ} {ρ σ L : ℝ} (B : Basin env.p xs ρ σ L)
    (prm : NLSParams ℝ) (x0 : Fin D → ℝ) (o o' : env.Obj) (out : NLSOutputs ℝ)
    (calls : List (NLSIteration ℝ)) (h : solve env prm x0 o = .ok (o', out, calls)) (k : Nat) (it : NLSIteration ℝ)
    (hit : out.iterations[k]? = some it) (hlam : it.lambda ≤ 0)
    (a b : env.Obj) (ha : After env prm x0 o k a) (hb : After env prm x0 o (k + 1) b) (hin : dist2 a.vars xs ≤ ρ) :
    (∃ st, it.lineSearchSteps = [st] ∧ st.alpha = 1 ∧ st.errors.equality = 0 ∧
      st.errors.f ≤ 3 / 4 * it.errorsInitial.f ∧ st.errors.f ≤ 1 / 2 * (41 / 32 * L * dist2 a.vars xs ^ 2) ^ 2 ∧
      (it.stepResult = .success → (3 / 4 * σ * dist2 b.vars xs) ^ 2 ≤ 2 * st.errors.f)) ∧
    it.errorsInitial.equality = 0 ∧ 0 ≤ it.errorsInitial.f ∧
    ((it.stepResult = .success ∧ dist2 b.vars xs ≤ L / (2 * σ) * dist2 a.vars xs ^ 2 ∧
        dist2 b.vars xs ≤ 1 / 4 * dist2 a.vars xs) ∨
      (it.stepResult = .firstOrderSatisfied ∧ b.vars = a.vars ∧
        (3 / 4 * σ * dist2 a.vars xs) ^ 2 ≤ prm.absoluteFirstDerivativeTol)) := by
  have hpd : 0 < it.lambda ∨ ∀ dx : Fin D → ℝ, (∀ r ∈ env.p.costs, ∀ k, slopeAt r a.vars dx k = 0) → dx = 0 := by
    right
    intro dx hz
    have h1 := B.stretch a.vars hin dx
    have h0 : (env.p.costs.map fun r => ∑ k, slopeAt r a.vars dx k ^ 2).sum = 0 := by
      refine List.sum_eq_zero ?_
      intro v hv
      obtain ⟨r, hr, rfl⟩ := List.mem_map.mp hv
      exact Finset.sum_eq_zero fun k _ => by rw [hz r hr k]; ring
    rw [h0] at h1
    have h2 : ∑ i, dx i ^ 2 ≤ 0 := by
      by_contra hn
      have := mul_pos (pow_pos B.pos 2) (not_le.mp hn)
      linarith
    have h3 := (Finset.sum_eq_zero_iff_of_nonneg (fun i _ => sq_nonneg (dx i))).mp
      (le_antisymm h2 (Finset.sum_nonneg fun i _ => sq_nonneg (dx i)))
    funext i
    exact pow_eq_zero_iff (two_ne_zero) |>.mp (h3 i (Finset.mem_univ i))
  obtain ⟨hmin, hder, -, -, -⟩ := C67_levenberg_marquardt env hE hp hi he prm x0 o o' out calls h k it hit a b ha hb hpd
  have hmax : max it.lambda 0 = 0 := max_eq_right hlam
  set r := stack env.p (fun r => valueAt r a.vars) with hrdef
  set J := jac env.p a.vars with hJ
  set d := vec (fun i => a.vars i - xs i) with hd
  have hmodel : ∀ dx : Fin D → ℝ, dampedModel env.p a.vars it.lambda dx = 1 / 2 * ‖r + J (vec dx)‖ ^ 2 := by
    intro dx
    rw [hrdef, hJ, jac_vec, stack_add, stack_norm]
    unfold dampedModel
    rw [hmax, List.sum_map_mul_left]
    simp only [zero_div, zero_mul, add_zero]
    rfl
  have hnormal : ∀ w, inner ℝ (r + J (vec b.dx)) (J w) = 0 := by
    apply normal
    intro w
    have e : w = vec w.ofLp := rfl
    by_cases hw : w.ofLp = b.dx
    · rw [e, hw]
    · have := hmin w.ofLp hw
      rw [hmodel, hmodel, ← e] at this
      linarith
  obtain ⟨b1, b2, b3⟩ := basin_at B hin
  have hL2 : 0 ≤ L / 2 := by linarith [B.nonneg]
  obtain ⟨-, p2, -⟩ := step (r' := r + J (vec b.dx)) B.pos (by norm_num) hL2 b2 hnormal (basin_stretch B hin) b1 (by
    rw [show r + J (vec b.dx) - r - J (vec b.dx) = 0 by abel, norm_zero]
    exact mul_nonneg hL2 (sq_nonneg _))
  have hplus : dist2 (fun i => a.vars i + b.dx i) xs = ‖d + vec b.dx‖ := by
    rw [dist2_vec]; congr 1; ext i; simp [vec, hd]; ring
  have hin' : dist2 (fun i => a.vars i + b.dx i) xs ≤ ρ := by
    rw [hplus]
    refine le_trans p2 ?_
    rw [← dist2_vec]
    have := dist2_nonneg a.vars xs
    linarith
  have hmv := basin_model B hin hin'
  have e1 : (vec fun i => a.vars i + b.dx i - a.vars i) = vec b.dx := by ext i; simp [vec]
  have e2 : dist2 a.vars (fun i => a.vars i + b.dx i) = ‖vec b.dx‖ := by
    rw [dist2_comm, dist2_vec, e1]
  rw [e1, e2] at hmv
  obtain ⟨q1, q2, q3, q4, q5, q6, q7⟩ := step (r' := stack env.p (fun r => valueAt r fun i => a.vars i + b.dx i)) B.pos
    (by norm_num) hL2 b2 hnormal (basin_stretch B hin) b1 hmv
  have hda : ‖d‖ = dist2 a.vars xs := (dist2_vec _ _).symm
  have hca := cost_norm env.p a.vars
  have hcb := cost_norm env.p (fun i => a.vars i + b.dx i)
  rw [← hrdef] at hca
  have hdF : it.directionalDerivatives.dF = - ‖J (vec b.dx)‖ ^ 2 := by
    have := hder 0
    rw [hmax, ← stack_norm env.p (fun r => slopeAt r a.vars b.dx), ← jac_vec] at this
    simpa [DirectionalDerivatives.total] using this
  have hjr : ‖J (vec b.dx)‖ ^ 2 ≤ ‖r‖ ^ 2 := pow_le_pow_left₀ (norm_nonneg _) q3 2
  obtain ⟨⟨st, hst, hal, herr⟩, hpre, hcase⟩ := full_step env hr hp he prm x0 o o' out calls h k it hit a b ha hb
    (by rw [hdF]; exact neg_nonpos.mpr (sq_nonneg _)) (by
      rw [hca, hcb, hdF]
      have := sq_nonneg ‖r‖
      linarith)
  have hviol : ∀ x : Fin D → ℝ, violationAt env.p x = 0 := by
    intro x; unfold violationAt; rw [he]; rfl
  refine ⟨⟨st, hst, hal, by rw [herr]; exact hviol _, ?_, ?_, ?_⟩, by rw [hpre]; exact hviol _, ?_, ?_⟩
  · rw [herr, hpre]
    show costAt _ _ ≤ 3 / 4 * costAt _ _
    rw [hca, hcb]
    linarith
  · rw [herr]
    show costAt _ _ ≤ _
    rw [hcb, ← hda]
    have := norm_nonneg (stack env.p (fun r => valueAt r fun i => a.vars i + b.dx i))
    have e : 41 / 16 * (L / 2) * ‖d‖ ^ 2 = 41 / 32 * L * ‖d‖ ^ 2 := by ring
    rw [e] at q5
    exact mul_le_mul_of_nonneg_left (pow_le_pow_left₀ this q5 2) (by norm_num)
  · intro hs
    rcases hcase with ⟨_, hbv⟩ | ⟨hf, _⟩
    · rw [herr, hbv]
      show _ ≤ 2 * costAt _ _
      rw [hcb]
      have := (basin_at B hin').2.2
      have h0 : 0 ≤ 3 / 4 * σ * dist2 (fun i => a.vars i + b.dx i) xs :=
        mul_nonneg (by linarith [B.pos]) (dist2_nonneg _ _)
      have := pow_le_pow_left₀ h0 this 2
      linarith
    · rw [hs] at hf; cases hf
  · rw [hpre]
    show 0 ≤ costAt _ _
    rw [hca]
    exact mul_nonneg (by norm_num) (sq_nonneg _)
  · rcases hcase with ⟨hs, hbv⟩ | ⟨hs, hbv, hlt⟩
    · left
      refine ⟨hs, ?_, ?_⟩
      · rw [hbv, hplus, ← hda, div_mul_eq_mul_div, le_div_iff₀ (by linarith [B.pos])]
        linarith
      · rw [hbv, hplus, ← hda]; exact q2
    · right
      refine ⟨hs, hbv, ?_⟩
      rw [hdF, abs_neg, abs_of_nonneg (sq_nonneg _)] at hlt
      rw [← hda]
      have h0 : 0 ≤ 3 / 4 * σ * ‖d‖ := mul_nonneg (by linarith [B.pos]) (norm_nonneg _)
      exact le_trans (pow_le_pow_left₀ h0 q7 2) hlt.le

theorem stops_unique {prm : NLSParams ℝ} {it : NLSIteration ℝ} {l l' : ℝ} {t t' : NLSTermination} (h : Stops prm it l t)
    (h' : Stops prm it l' t') : t = t' := by
  cases t <;> cases t' <;> simp only [Stops] at h h' <;> try rfl
  all_goals first
    | exact h.elim
    | exact h'.elim
    | (exfalso
       obtain ⟨_, last, hl, hlt⟩ := h
       obtain ⟨_, last', hl', hn, _⟩ := h'
       rw [hl] at hl'
       cases hl'
       exact hn hlt)
    | (exfalso
       obtain ⟨_, last, hl, hn, _⟩ := h
       obtain ⟨_, last', hl', hlt⟩ := h'
       rw [hl] at hl'
       cases hl'
       exact hn hlt)
    | (exfalso
       rcases h.1 with e | e <;> rw [e] at h' <;> first | (have q := h'.1; cases q) | (cases h'))
    | (exfalso
       rcases h'.1 with e | e <;> rw [e] at h <;> first | (have q := h.1; cases q) | (cases h))
    | (exfalso
       have e := h.1
       rw [h'] at e
       cases e)
    | (exfalso
       have e := h'.1
       rw [h] at e
       cases e)

/-- In a legal log an iteration after which the solver stops is the last one. -/
theorem legal_stops {prm : NLSParams ℝ} {set : Setting} {k : Nat} {c : Control ℝ} {log : List (NLSIteration ℝ)}
    {t : NLSTermination} (h : LegalLog prm set k c log t) :
    ∀ (j : Nat) it t', log[j]? = some it → (∀ l, Stops prm it l t') → j + 1 = log.length ∧ t = t' := by
  induction h with
  | limit | indefinite => intro j it t' hj; simp at hj
  | stop k c c' it t hk hit hst =>
    intro j it' t' hj hs
    cases j with
    | zero => cases hj; exact ⟨rfl, stops_unique hst (hs 0)⟩
    | succ j => simp at hj
  | user k c c' it hk hit hn _ =>
    intro j it' t' hj hs
    cases j with
    | zero => cases hj; exact absurd (hs _) (hn t')
    | succ j => simp at hj
  | next k c c' it rest t hk hit hn _ ih =>
    intro j it' t' hj hs
    cases j with
    | zero => cases hj; exact absurd (hs _) (hn t')
    | succ j =>
      obtain ⟨h1, h2⟩ := ih j it' t' (by simpa using hj) hs
      exact ⟨by rw [List.length_cons]; omega, h2⟩

/-- Why a legal log ends. -/
theorem legal_end {prm : NLSParams ℝ} {set : Setting} {k : Nat} {c : Control ℝ} {log : List (NLSIteration ℝ)}
    {t : NLSTermination} (h : LegalLog prm set k c log t) :
    t = .maxIterations ∨ (t = .qpIndefinite ∧ set.equalities) ∨ (t = .userCallback ∧ set.callback) ∨
      ∃ it l, log[log.length - 1]? = some it ∧ Stops prm it l t := by
  induction h with
  | limit => exact .inl rfl
  | indefinite k c hk he _ => exact .inr (.inl ⟨rfl, he⟩)
  | stop k c c' it t hk hit hst => exact .inr (.inr (.inr ⟨it, _, rfl, hst⟩))
  | user k c c' it hk hit hn hc => exact .inr (.inr (.inl ⟨rfl, hc⟩))
  | next k c c' it rest t hk hit hn _ ih =>
    rcases ih with h | h | h | ⟨it', l, hl, hs⟩
    · exact .inl h
    · exact .inr (.inl h)
    · exact .inr (.inr (.inl h))
    · refine .inr (.inr (.inr ⟨it', l, ?_, hs⟩))
      have hlt := lt_of_getElem? hl
      rw [List.length_cons]
      have : rest.length + 1 - 1 = (rest.length - 1) + 1 := by omega
      rw [this, List.getElem?_cons_succ]; exact hl

/-- The rate: `ρ (1/4)^(2^k - 1)`. -/
theorem rate_step {L ρ σ d d' : ℝ} (hρ : 0 ≤ ρ) (hσ : 0 < σ) (hL : 0 ≤ L) (hs : L * ρ ≤ σ / 2) (hd : 0 ≤ d) (k : Nat)
    (h : d ≤ ρ * (1 / 4) ^ (2 ^ k - 1)) (h' : d' ≤ L / (2 * σ) * d ^ 2) : d' ≤ ρ * (1 / 4) ^ (2 ^ (k + 1) - 1) := by
  have h1 : d ^ 2 ≤ (ρ * (1 / 4) ^ (2 ^ k - 1)) ^ 2 := pow_le_pow_left₀ hd h 2
  have hk : 1 ≤ 2 ^ k := Nat.one_le_two_pow
  have he : 2 ^ (k + 1) - 1 = (2 ^ k - 1) * 2 + 1 := by rw [pow_succ]; omega
  have hq : L / (2 * σ) * ρ ≤ 1 / 4 := by
    rw [div_mul_eq_mul_div, div_le_iff₀ (by linarith)]
    linarith
  calc d' ≤ L / (2 * σ) * d ^ 2 := h'
    _ ≤ L / (2 * σ) * (ρ * (1 / 4) ^ (2 ^ k - 1)) ^ 2 := mul_le_mul_of_nonneg_left h1 (div_nonneg hL (by linarith))
    _ = (L / (2 * σ) * ρ) * (ρ * ((1 / 4) ^ ((2 ^ k - 1) * 2))) := by rw [mul_pow, pow_mul]; ring
    _ ≤ 1 / 4 * (ρ * ((1 / 4) ^ ((2 ^ k - 1) * 2))) := mul_le_mul_of_nonneg_right hq (by positivity)
    _ = ρ * (1 / 4) ^ (2 ^ (k + 1) - 1) := by rw [he, pow_succ]; ring

/-- Everything that is invariant along a run that starts in the basin. -/
theorem basin_run (env : Env D D ℝ) (hE : LDLTContract env.E) (hr : env.retraction = none) (hp : WellPosed env.p D)
    (hi : env.p.ineq = []) (he : env.p.eqs = []) {xs : Fin D → ℝ} {ρ σ L : ℝ} (B : Basin env.p xs ρ σ L)
    (prm : NLSParams ℝ) (hlam : prm.lambdaInitial ≤ 0) (x0 : Fin D → ℝ) (hx0 : dist2 x0 xs ≤ ρ) (o o' : env.Obj)
    (out : NLSOutputs ℝ) (calls : List (NLSIteration ℝ)) (h : solve env prm x0 o = .ok (o', out, calls)) :
    ∀ k, k ≤ out.iterations.length →
      (∀ it, out.iterations[k]? = some it → it.lambda ≤ 0) ∧
      (∀ ob, After env prm x0 o k ob → dist2 ob.vars xs ≤ ρ ∧
        ((k < out.iterations.length ∨ out.termination ≠ .satisfiedFirstOrderTol) →
          dist2 ob.vars xs ≤ ρ * (1 / 4) ^ (2 ^ k - 1))) := by
  obtain ⟨hex, hfirst, hlast⟩ := C38_after env prm x0 o o' out calls h
  obtain ⟨hl0, hlk⟩ := C43_state_machine env prm x0 o o' out calls h
  have hleg := C87_solve env prm x0 o o' out calls h
  obtain ⟨S, T, W, hv⟩ := solve_view h
  have hv' := hv.prmOk
  have hmlam : prm.minLambda ≤ 0 := le_trans hv'.lambdaInitial.1 hlam
  intro k
  induction k with
  | zero =>
    intro _
    refine ⟨fun it hit => by rw [hl0 it hit]; exact hlam, fun ob hob => ?_⟩
    rw [hfirst ob hob]
    exact ⟨hx0, fun _ => by simpa using hx0⟩
  | succ k ih =>
    intro hk
    obtain ⟨ih1, ih2⟩ := ih (by omega)
    obtain ⟨it, hit⟩ : ∃ it, out.iterations[k]? = some it := ⟨_, List.getElem?_eq_getElem (by omega)⟩
    obtain ⟨a, ha, _⟩ := hex k (by omega)
    obtain ⟨b, hb, hbu⟩ := hex (k + 1) (by omega)
    obtain ⟨hin, hrate⟩ := ih2 a ha
    obtain ⟨-, -, -, hcase⟩ := basin_iteration env hE hr hp hi he B prm x0 o o' out calls h k it hit (ih1 it hit) a b ha hb hin
    constructor
    · intro it' hit'
      have hs' := hlk k it hit
      have hk' := lt_of_getElem? hit'
      rcases hcase with ⟨hs, -⟩ | ⟨hs, -⟩
      · rw [hs] at hs'
        rw [hs'.2 it'.lambda (by rw [hit']; rfl)]
        simp only [real_cmax]
        refine max_le (mul_nonpos_of_nonpos_of_nonneg (ih1 it hit) ?_) hmlam
        split
        · exact hv'.lambdaDecreaseOnSuccess.1
        · exact hv'.lambdaDecreaseOnRestore.1
      · rw [hs] at hs'
        rw [hit'] at hs'
        cases hs'.2
    · intro ob hob
      have e : ob = b := hbu ob hob
      rw [e]
      rcases hcase with ⟨hs, hquad, hquarter⟩ | ⟨hs, hbv, -⟩
      · refine ⟨by have := dist2_nonneg a.vars xs; linarith, fun _ => ?_⟩
        exact rate_step B.radius B.pos B.nonneg B.small (dist2_nonneg _ _) k (hrate (.inl (by omega))) hquad
      · rw [hbv]
        refine ⟨hin, ?_⟩
        obtain ⟨h1, h2⟩ := legal_stops hleg k it .satisfiedFirstOrderTol hit (fun l => hs)
        rintro (hlt | hne)
        · omega
        · exact absurd h2 hne

/-- **C88.** Costs only, no damping, and a start within a basin of a point where all costs vanish: every iteration
tries the full step and nothing else, and accepts it unless the derivative is below the tolerance, which ends the run; the
distance to the solution is squared by each accepted step (times `L / (2σ)`), so after `k` of them it is at most
`ρ (1/4)^(2^k - 1)`. -/
theorem C88_quadratic (env : Env D D ℝ) (hE : LDLTContract env.E) (hr : env.retraction = none) (hp : WellPosed env.p D)
    (hi : env.p.ineq = []) (he : env.p.eqs = []) (xs : Fin D → ℝ) (ρ σ L : ℝ) (B : Basin env.p xs ρ σ L)
    (prm : NLSParams ℝ) (hlam : prm.lambdaInitial ≤ 0) (x0 : Fin D → ℝ) (hx0 : dist2 x0 xs ≤ ρ) (o o' : env.Obj)
    (out : NLSOutputs ℝ) (calls : List (NLSIteration ℝ)) (h : solve env prm x0 o = .ok (o', out, calls)) :
    (∀ it ∈ out.iterations, ∃ st, it.lineSearchSteps = [st] ∧ st.alpha = 1) ∧
    (∀ (k : Nat) it a b, out.iterations[k]? = some it → After env prm x0 o k a → After env prm x0 o (k + 1) b →
      (it.stepResult = .success ∧ dist2 b.vars xs ≤ L / (2 * σ) * dist2 a.vars xs ^ 2) ∨
      (it.stepResult = .firstOrderSatisfied ∧ k + 1 = out.iterations.length ∧ b.vars = a.vars)) ∧
    (∀ k, k < out.iterations.length → ∀ a, After env prm x0 o k a → dist2 a.vars xs ≤ ρ * (1 / 4) ^ (2 ^ k - 1)) ∧
    (out.termination ≠ .satisfiedFirstOrderTol →
      dist2 o'.vars xs ≤ ρ * (1 / 4) ^ (2 ^ out.iterations.length - 1)) := by
  have hrun := basin_run env hE hr hp hi he B prm hlam x0 hx0 o o' out calls h
  obtain ⟨hex, hfirst, hlast⟩ := C38_after env prm x0 o o' out calls h
  have hleg := C87_solve env prm x0 o o' out calls h
  refine ⟨?_, ?_, ?_, ?_⟩
  · intro it hm
    obtain ⟨k, hk, hget⟩ := List.getElem_of_mem hm
    have hit : out.iterations[k]? = some it := by rw [List.getElem?_eq_getElem hk, hget]
    obtain ⟨a, ha, _⟩ := hex k (by omega)
    obtain ⟨b, hb, _⟩ := hex (k + 1) (by omega)
    obtain ⟨h1, h2⟩ := hrun k (by omega)
    obtain ⟨⟨st, hs1, hs2, -⟩, -⟩ := basin_iteration env hE hr hp hi he B prm x0 o o' out calls h k it hit (h1 it hit) a b ha
      hb (h2 a ha).1
    exact ⟨st, hs1, hs2⟩
  · intro k it a b hit ha hb
    have hk := lt_of_getElem? hit
    obtain ⟨h1, h2⟩ := hrun k (by omega)
    obtain ⟨-, -, -, hcase⟩ := basin_iteration env hE hr hp hi he B prm x0 o o' out calls h k it hit (h1 it hit) a b ha
      hb (h2 a ha).1
    rcases hcase with ⟨hs, hq, -⟩ | ⟨hs, hbv, -⟩
    · exact .inl ⟨hs, hq⟩
    · exact .inr ⟨hs, (legal_stops hleg k it .satisfiedFirstOrderTol hit (fun l => hs)).1, hbv⟩
  · intro k hk a ha
    exact ((hrun k (by omega)).2 a ha).2 (.inl hk)
  · intro hne
    obtain ⟨e, hea, _⟩ := hex _ le_rfl
    rw [← hlast e hea]
    exact ((hrun _ le_rfl).2 e hea).2 (.inr hne)

/-- **C88** (the result). Such a run ends for one of four reasons, and if it is a tolerance the result is as close as
the tolerance says. -/
theorem C88_result (env : Env D D ℝ) (hE : LDLTContract env.E) (hr : env.retraction = none) (hp : WellPosed env.p D)
    (hi : env.p.ineq = []) (he : env.p.eqs = []) (xs : Fin D → ℝ) (ρ σ L : ℝ) (B : Basin env.p xs ρ σ L)
    (prm : NLSParams ℝ) (hlam : prm.lambdaInitial ≤ 0) (hrel : prm.relativeExitTol ≤ 1 / 4)
    (x0 : Fin D → ℝ) (hx0 : dist2 x0 xs ≤ ρ) (o o' : env.Obj)
    (out : NLSOutputs ℝ) (calls : List (NLSIteration ℝ)) (h : solve env prm x0 o = .ok (o', out, calls)) :
    match out.termination with
    | .satisfiedAbsoluteTol => (3 / 4 * σ * dist2 o'.vars xs) ^ 2 ≤ 2 * prm.absoluteExitTol
    | .satisfiedFirstOrderTol => (3 / 4 * σ * dist2 o'.vars xs) ^ 2 ≤ prm.absoluteFirstDerivativeTol
    | .maxIterations => (out.iterations.length : Int) = prm.maxIterations
    | .userCallback => env.callback ≠ none
    | _ => False := by
  have hrun := basin_run env hE hr hp hi he B prm hlam x0 hx0 o o' out calls h
  obtain ⟨hex, hfirst, hlast⟩ := C38_after env prm x0 o o' out calls h
  have hleg := C87_solve env prm x0 o o' out calls h
  rcases legal_end hleg with ht | ⟨ht, hset⟩ | ⟨ht, hset⟩ | ⟨it, l, hit, hstop⟩
  · rw [ht]
    have := (legal_counts hleg).2.1 ht
    simpa using this
  · exact absurd he hset
  · rw [ht]; exact hset
  · have hk := lt_of_getElem? hit
    obtain ⟨a, ha, _⟩ := hex (out.iterations.length - 1) (by omega)
    obtain ⟨b, hb, _⟩ := hex (out.iterations.length - 1 + 1) (by omega)
    obtain ⟨h1, h2⟩ := hrun (out.iterations.length - 1) (by omega)
    obtain ⟨⟨st, hs1, hs2, hs3, hs4, hs5, hs6⟩, hi1, hi2, hcase⟩ := basin_iteration env hE hr hp hi he B prm x0 o o' out calls h
      _ it hit (h1 it hit) a b ha hb (h2 a ha).1
    have hb' : b.vars = o'.vars := by
      rw [show out.iterations.length - 1 + 1 = out.iterations.length by omega] at hb
      exact hlast b hb
    have hlst : it.lineSearchSteps.getLast? = some st := by rw [hs1]; rfl
    cases ht : out.termination with
    | satisfiedAbsoluteTol =>
      rw [ht] at hstop
      obtain ⟨hs, last, hl, hlt⟩ := hstop
      rw [hlst] at hl
      cases hl
      rw [← hb']
      have h3 := hs6 hs
      have h4 : st.errors.f < prm.absoluteExitTol := by
        unfold Errors.lInfinity at hlt
        simp only [real_cmax] at hlt
        exact lt_of_le_of_lt (le_max_left _ _) hlt
      show _ ≤ _
      linarith
    | satisfiedRelativeTol =>
      rw [ht] at hstop
      obtain ⟨hs, last, hl, _, hgt⟩ := hstop
      rw [hlst] at hl
      cases hl
      unfold Errors.total at hgt
      rw [hs3, hi1] at hgt
      simp only [mul_zero, add_zero] at hgt
      have : it.errorsInitial.f * (3 / 4) ≤ it.errorsInitial.f * (1 - prm.relativeExitTol) :=
        mul_le_mul_of_nonneg_left (by linarith) hi2
      linarith
    | satisfiedFirstOrderTol =>
      rw [ht] at hstop
      rcases hcase with ⟨hs, -⟩ | ⟨_, hbv, hq⟩
      · rw [show it.stepResult = .firstOrderSatisfied from hstop] at hs; cases hs
      · rw [← hb', hbv]; exact hq
    | maxLambda =>
      rw [ht] at hstop
      rcases hcase with ⟨hs, -⟩ | ⟨hs, -⟩ <;> rcases hstop.1 with e | e <;> rw [e] at hs <;> cases hs
    | maxIterations => rw [ht] at hstop; exact hstop.elim
    | qpIndefinite => rw [ht] at hstop; exact hstop.elim
    | userCallback => rw [ht] at hstop; exact hstop.elim

/-- **C88** (few iterations). If `max_iterations` exceeds `m` and the bound on the cost that follows from the rate is below
`absolute_exit_tol` after `m + 1` steps, the run makes at most `m + 1` iterations and does not end with
`MAX_ITERATIONS`. -/
theorem C88_finishes (env : Env D D ℝ) (hE : LDLTContract env.E) (hr : env.retraction = none) (hp : WellPosed env.p D)
    (hi : env.p.ineq = []) (he : env.p.eqs = []) (xs : Fin D → ℝ) (ρ σ L : ℝ) (B : Basin env.p xs ρ σ L)
    (prm : NLSParams ℝ) (hlam : prm.lambdaInitial ≤ 0)
    (x0 : Fin D → ℝ) (hx0 : dist2 x0 xs ≤ ρ) (o o' : env.Obj)
    (out : NLSOutputs ℝ) (calls : List (NLSIteration ℝ)) (h : solve env prm x0 o = .ok (o', out, calls)) (m : Nat)
    (hm : (m : Int) < prm.maxIterations)
    (htol : 1 / 2 * (41 / 32 * L * (ρ * (1 / 4) ^ (2 ^ m - 1)) ^ 2) ^ 2 < prm.absoluteExitTol) :
    out.iterations.length ≤ m + 1 ∧ out.termination ≠ .maxIterations := by
  have hrun := basin_run env hE hr hp hi he B prm hlam x0 hx0 o o' out calls h
  obtain ⟨hex, hfirst, hlast⟩ := C38_after env prm x0 o o' out calls h
  have hleg := C87_solve env prm x0 o o' out calls h
  by_cases hlen : m < out.iterations.length
  · obtain ⟨it, hit⟩ : ∃ it, out.iterations[m]? = some it := ⟨_, List.getElem?_eq_getElem hlen⟩
    obtain ⟨a, ha, _⟩ := hex m (by omega)
    obtain ⟨b, hb, _⟩ := hex (m + 1) (by omega)
    obtain ⟨h1, h2⟩ := hrun m (by omega)
    obtain ⟨⟨st, hs1, hs2, hs3, hs4, hs5, hs6⟩, hi1, hi2, hcase⟩ := basin_iteration env hE hr hp hi he B prm x0 o o' out calls h
      _ it hit (h1 it hit) a b ha hb (h2 a ha).1
    have hd := (h2 a ha).2 (.inl hlen)
    have hlst : it.lineSearchSteps.getLast? = some st := by rw [hs1]; rfl
    have hfin : ∃ t', t' ≠ NLSTermination.maxIterations ∧ ∀ l, Stops prm it l t' := by
      rcases hcase with ⟨hs, -⟩ | ⟨hs, -⟩
      · refine ⟨.satisfiedAbsoluteTol, by simp, fun l => ⟨hs, st, hlst, ?_⟩⟩
        have h3 : dist2 a.vars xs ^ 2 ≤ (ρ * (1 / 4) ^ (2 ^ m - 1)) ^ 2 := pow_le_pow_left₀ (dist2_nonneg _ _) hd 2
        have h4 : 41 / 32 * L * dist2 a.vars xs ^ 2 ≤ 41 / 32 * L * (ρ * (1 / 4) ^ (2 ^ m - 1)) ^ 2 :=
          mul_le_mul_of_nonneg_left h3 (by linarith [B.nonneg])
        have h5 := pow_le_pow_left₀ (mul_nonneg (by linarith [B.nonneg]) (sq_nonneg _)) h4 2
        have h6 : st.errors.f < prm.absoluteExitTol := by linarith
        have h7 : 0 ≤ st.errors.f := by
          have := hs6 hs
          have := sq_nonneg (3 / 4 * σ * dist2 b.vars xs)
          linarith
        unfold Errors.lInfinity
        rw [hs3]
        simp only [real_cmax]
        exact max_lt h6 (lt_of_le_of_lt h7 h6)
      · exact ⟨.satisfiedFirstOrderTol, by simp, fun l => hs⟩
    obtain ⟨t', hne, hst⟩ := hfin
    obtain ⟨h3, h4⟩ := legal_stops hleg m it t' hit hst
    exact ⟨by omega, by rw [h4]; exact hne⟩
  · refine ⟨by omega, ?_⟩
    intro ht
    have := (legal_counts hleg).2.1 ht
    omega

end MiniOpt.Props
