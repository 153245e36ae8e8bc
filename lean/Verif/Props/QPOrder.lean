import Verif.Props.QPReuse
import Verif.Props.QPIterates
import Verif.Props.QPMore
import Verif.Props.Constraints
import Verif.Props.QPSetup

/-!
# C82: the labelling of a QP does not matter

Renumbering the variables, the equality rows and the inequality constraints of a QP renumbers the result and changes
nothing else.
-/

set_option autoImplicit false

namespace MiniOpt.Props

open MiniOpt.Spec MiniOpt.IP

variable {N M K : Nat}

/-- `p'` is `p` with variable `i` called `σ i`, equality row `k` called `κ k` and inequality constraint `m` called
`e m` in `p`. -/
structure Relabelled (σ : Equiv.Perm (Fin N)) (κ : Equiv.Perm (Fin K)) (e : Equiv.Perm (Fin M))
    (p p' : QP N M K ℝ) : Prop where
  G : ∀ i j, Gsym p' i j = Gsym p (σ i) (σ j)
  c : ∀ i, p'.c i = p.c (σ i)
  A : ∀ k i, p'.A k i = p.A (κ k) (σ i)
  b : ∀ k, p'.b k = p.b (κ k)
  var : ∀ m, σ (p'.con m).var = (p.con (e m)).var
  a : ∀ m, (p'.con m).a = (p.con (e m)).a
  off : ∀ m, (p'.con m).b = (p.con (e m)).b

/-- The same point under the new names. -/
def relabel (σ : Equiv.Perm (Fin N)) (κ : Equiv.Perm (Fin K)) (e : Equiv.Perm (Fin M)) (v : Blocks N M K ℝ) :
    Blocks N M K ℝ := ⟨fun i => v.x (σ i), fun m => v.s (e m), fun k => v.y (κ k), fun m => v.z (e m)⟩

/-- The new names of the rows of the reduced system. -/
def redPerm (σ : Equiv.Perm (Fin N)) (κ : Equiv.Perm (Fin K)) : Equiv.Perm (Red N K) := Equiv.sumCongr σ κ

/-- The factorisation respects the new names. -/
def Respects (σ : Equiv.Perm (Fin N)) (κ : Equiv.Perm (Fin K)) (E E' : Eigen N K ℝ) : Prop :=
  ∀ H : Red N K → Red N K → ℝ, E'.ldltInverse (fun r c => H (redPerm σ κ r) (redPerm σ κ c))
    = (E.ldltInverse H).map fun Hi r c => Hi (redPerm σ κ r) (redPerm σ κ c)

section sim

variable {σ : Equiv.Perm (Fin N)} {κ : Equiv.Perm (Fin K)} {e : Equiv.Perm (Fin M)} {p p' : QP N M K ℝ}

theorem Relabelled.var_eq (h : Relabelled σ κ e p p') (m : Fin M) (i : Fin N) :
    (p'.con m).var = i ↔ (p.con (e m)).var = σ i := by
  rw [← h.var m]
  exact σ.injective.eq_iff.symm

theorem Relabelled.sum_con (h : Relabelled σ κ e p p') (i : Fin N) (f : Fin M → ℝ) :
    (∑ m, if (p'.con m).var = i then f (e m) else 0) = ∑ m, if (p.con m).var = σ i then f m else 0 := by
  rw [← Equiv.sum_comp e fun m => if (p.con m).var = σ i then f m else 0]
  exact Finset.sum_congr rfl fun m _ => by simp only [h.var_eq m i]

theorem Relabelled.ineqVal (h : Relabelled σ κ e p p') (v : Blocks N M K ℝ) (m : Fin M) :
    ineqVal p' (relabel σ κ e v).x m = ineqVal p v.x (e m) := by
  simp only [Spec.ineqVal, relabel, h.a, h.off, h.var]

theorem Relabelled.eqVal (h : Relabelled σ κ e p p') (v : Blocks N M K ℝ) (k : Fin K) :
    eqVal p' (relabel σ κ e v).x k = eqVal p v.x (κ k) := by
  simp only [Spec.eqVal, relabel, h.A, h.b]
  rw [Equiv.sum_comp σ fun j => p.A (κ k) j * v.x j]

theorem Relabelled.grad0 (h : Relabelled σ κ e p p') (v : Blocks N M K ℝ) (i : Fin N) :
    (∑ j, Gsym p' i j * (relabel σ κ e v).x j) + p'.c i - (∑ k, p'.A k i * (relabel σ κ e v).y k)
      = (∑ j, Gsym p (σ i) j * v.x j) + p.c (σ i) - ∑ k, p.A k (σ i) * v.y k := by
  simp only [relabel, h.A, h.c, h.G]
  rw [Equiv.sum_comp σ fun j => Gsym p (σ i) j * v.x j, Equiv.sum_comp κ fun k => p.A k (σ i) * v.y k]

theorem Relabelled.grad (h : Relabelled σ κ e p p') (v : Blocks N M K ℝ) (i : Fin N) :
    gradLagrangian p' (relabel σ κ e v) i = gradLagrangian p v (σ i) := by
  unfold gradLagrangian
  rw [h.grad0 v i, ← h.sum_con i fun m => (p.con m).a * v.z m]
  simp only [relabel, h.a]

theorem Relabelled.reduced (h : Relabelled σ κ e p p') (v : Blocks N M K ℝ) (r c : Red N K) :
    reducedMatrix p' (relabel σ κ e v) r c = reducedMatrix p v (redPerm σ κ r) (redPerm σ κ c) := by
  rcases r with i | k <;> rcases c with j | l
  · simp only [reducedMatrix, redPerm, Equiv.sumCongr_apply, Sum.map_inl, h.G, EmbeddingLike.apply_eq_iff_eq]
    rw [← h.sum_con i fun m => (p.con m).a * (v.z m / v.s m) * (p.con m).a]
    simp only [relabel, h.a]
  · simp only [reducedMatrix, redPerm, Equiv.sumCongr_apply, Sum.map_inl, Sum.map_inr, h.A]
  · simp only [reducedMatrix, redPerm, Equiv.sumCongr_apply, Sum.map_inl, Sum.map_inr, h.A]
  · simp only [reducedMatrix, redPerm, Equiv.sumCongr_apply, Sum.map_inr]

theorem Relabelled.kkt (h : Relabelled σ κ e p p') (r c : Red N K) :
    kktMatrix p' r c = kktMatrix p (redPerm σ κ r) (redPerm σ κ c) := by
  rcases r with i | k <;> rcases c with j | l <;>
    simp only [kktMatrix, redPerm, Equiv.sumCongr_apply, Sum.map_inl, Sum.map_inr, h.A, h.G]

/-- Objects that hold the same values under the new names. -/
structure Rel (σ : Equiv.Perm (Fin N)) (κ : Equiv.Perm (Fin K)) (e : Equiv.Perm (Fin M))
    (st st' : IPState N M K ℝ) : Prop where
  v : st'.v = relabel σ κ e st.v
  r : st'.r = relabel σ κ e st.r
  wf : WF st
  wf' : WF st'

/-- The same after the factorisation. -/
structure RelH (σ : Equiv.Perm (Fin N)) (κ : Equiv.Perm (Fin K)) (e : Equiv.Perm (Fin M))
    (st st' : IPState N M K ℝ) : Prop extends Rel σ κ e st st' where
  Hinv : st'.Hinv = fun r c => st.Hinv (redPerm σ κ r) (redPerm σ κ c)
  delta : st'.delta = relabel σ κ e st.delta
  deltaAff : st'.deltaAff = relabel σ κ e st.deltaAff

theorem evaluateKKT_rel (h : Relabelled σ κ e p p') {st st' : IPState N M K ℝ} (hv : st'.v = relabel σ κ e st.v)
    (hw : WF st) (hw' : WF st') : Rel σ κ e (evaluateKKT p true st) (evaluateKKT p' true st') := by
  refine ⟨?_, ?_, WF_evaluateKKT hw, WF_evaluateKKT hw'⟩
  · rw [evaluateKKT_v, evaluateKKT_v, hv]
  · have e1 : (evaluateKKT p' true st').r = ⟨(evaluateKKT p' true st').r.x, (evaluateKKT p' true st').r.s,
      (evaluateKKT p' true st').r.y, (evaluateKKT p' true st').r.z⟩ := rfl
    rw [e1]
    unfold relabel
    congr 1
    · funext i; rw [evaluateKKT_rx, evaluateKKT_rx, hv, h.grad]
    · funext i; rw [evaluateKKT_rs, evaluateKKT_rs, hv]; rfl
    · funext i; rw [evaluateKKT_ry, evaluateKKT_ry, hv, h.eqVal]
    · funext i; rw [evaluateKKT_rz, evaluateKKT_rz, hv, h.ineqVal]; rfl

/-- Both calls fail in the same way, or both succeed and are related. -/
def Both {A A' B B' : Type} (R : B → B' → Prop) (x : Except (Fault × A) B) (y : Except (Fault × A') B') : Prop :=
  (∃ f a a', x = .error (f, a) ∧ y = .error (f, a')) ∨ ∃ b b', x = .ok b ∧ y = .ok b' ∧ R b b'

theorem computeLDLT_rel {E E' : Eigen N K ℝ} (hE : Respects σ κ E E') (h : Relabelled σ κ e p p')
    {st st' : IPState N M K ℝ} (hr : Rel σ κ e st st') :
    Both (RelH σ κ e) (computeLDLT E p true st) (computeLDLT E' p' true st') := by
  have hs : (∀ i, (0 : ℝ) < st'.v.s i) ↔ ∀ i, (0 : ℝ) < st.v.s i := by
    rw [hr.v]
    constructor
    · intro hp i
      have := hp (e.symm i)
      simpa [relabel] using this
    · exact fun hp i => hp (e i)
  unfold computeLDLT
  by_cases hp : ∀ i, (0 : ℝ) < st.v.s i
  · rw [if_pos (.inr hp), if_pos (.inr (hs.mpr hp))]
    dsimp only
    rw [symRed_fillH p st hr.wf, symRed_fillH p' st' hr.wf']
    have hm : reducedMatrix p' st'.v
        = fun r c => reducedMatrix p st.v (redPerm σ κ r) (redPerm σ κ c) := by
      rw [hr.v]; funext r c; exact h.reduced st.v r c
    rw [hm, hE (reducedMatrix p st.v)]
    cases hl : E.ldltInverse (reducedMatrix p st.v) with
    | none => exact .inl ⟨_, _, _, rfl, rfl⟩
    | some Hi =>
      refine .inr ⟨_, _, rfl, rfl, ⟨⟨hr.v, hr.r, ?_, ?_⟩, rfl, rfl, rfl⟩⟩
      · intro k l; exact (fillH_br p true st k l).trans (hr.wf k l)
      · intro k l; exact (fillH_br p' true st' k l).trans (hr.wf' k l)
  · rw [if_neg (by simpa using hp), if_neg (by rw [hs]; simpa using hp)]
    exact .inl ⟨_, _, _, rfl, rfl⟩

theorem applyInvX_rel {st st' : IPState N M K ℝ} {rx rx' : Fin N → ℝ}
    (hH : st'.Hinv = fun r c => st.Hinv (redPerm σ κ r) (redPerm σ κ c)) (hy : st'.r.y = fun k => st.r.y (κ k))
    (hx : rx' = fun i => rx (σ i)) (i : Fin N) : applyInvX st' rx' i = applyInvX st rx (σ i) := by
  subst hx
  unfold applyInvX
  have e1 : dot (fun j => st'.Hinv (.inl i) (.inl j)) (fun j => - rx (σ j))
      = dot (fun j => st.Hinv (.inl (σ i)) (.inl j)) (fun j => - rx j) := by
    rw [real_dot, real_dot, hH, ← Equiv.sum_comp σ fun j => st.Hinv (.inl (σ i)) (.inl j) * - rx j]
    rfl
  have e2 : dot (fun k => st'.Hinv (.inl i) (.inr k)) (fun k => - st'.r.y k)
      = dot (fun k => st.Hinv (.inl (σ i)) (.inr k)) (fun k => - st.r.y k) := by
    rw [real_dot, real_dot, hH, hy, ← Equiv.sum_comp κ fun k => st.Hinv (.inl (σ i)) (.inr k) * - st.r.y k]
    rfl
  by_cases hK : 0 < K
  · simp only [hK, if_true, e1, e2]
  · simp only [hK, if_false, e1]

theorem applyInvY_rel {st st' : IPState N M K ℝ} {rx rx' : Fin N → ℝ}
    (hH : st'.Hinv = fun r c => st.Hinv (redPerm σ κ r) (redPerm σ κ c)) (hy : st'.r.y = fun k => st.r.y (κ k))
    (hx : rx' = fun i => rx (σ i)) (k : Fin K) : applyInvY st' rx' k = applyInvY st rx (κ k) := by
  subst hx
  have hK : 0 < K := k.pos
  unfold applyInvY
  simp only [hK, if_true]
  have e1 : dot (fun j => st'.Hinv (.inr k) (.inl j)) (fun j => rx (σ j))
      = dot (fun j => st.Hinv (.inr (κ k)) (.inl j)) rx := by
    rw [real_dot, real_dot, hH, ← Equiv.sum_comp σ fun j => st.Hinv (.inr (κ k)) (.inl j) * rx j]
    rfl
  have e2 : dot (fun l => st'.Hinv (.inr k) (.inr l)) st'.r.y
      = dot (fun l => st.Hinv (.inr (κ k)) (.inr l)) st.r.y := by
    rw [real_dot, real_dot, hH, hy, ← Equiv.sum_comp κ fun l => st.Hinv (.inr (κ k)) (.inr l) * st.r.y l]
    rfl
  rw [e1, e2]

theorem dualAug_rel (h : Relabelled σ κ e p p') (mu : ℝ) {st st' : IPState N M K ℝ} (hr : RelH σ κ e st st') :
    dualAug p' mu st' = fun i => dualAug p mu st (σ i) := by
  funext i
  rw [dualAug_eq, dualAug_eq, ← h.sum_con i fun m => (p.con m).a * (st.v.z m / st.v.s m) * st.r.z m +
        (p.con m).a * (st.r.s m + st.deltaAff.s m * st.deltaAff.z m - mu) / st.v.s m]
  rw [hr.v, hr.r, hr.deltaAff]
  simp only [relabel, h.a]

theorem solveForUpdate_rel (h : Relabelled σ κ e p p') (mu : ℝ) {st st' : IPState N M K ℝ} (hr : RelH σ κ e st st') :
    RelH σ κ e (solveForUpdate p mu st) (solveForUpdate p' mu st') := by
  have hy : st'.r.y = fun k => st.r.y (κ k) := by rw [hr.r]; rfl
  have hx := dualAug_rel h mu hr
  have hdx : ∀ i, applyInvX st' (dualAug p' mu st') i = applyInvX st (dualAug p mu st) (σ i) :=
    applyInvX_rel hr.Hinv hy hx
  refine ⟨⟨hr.v, hr.r, hr.wf, hr.wf'⟩, hr.Hinv, ?_, hr.deltaAff⟩
  unfold solveForUpdate relabel
  simp only
  have hds : ∀ m, (p'.con m).a * applyInvX st' (dualAug p' mu st') (p'.con m).var + st'.r.z m =
      (p.con (e m)).a * applyInvX st (dualAug p mu st) (p.con (e m)).var + st.r.z (e m) := by
    intro m
    rw [hdx, h.a, h.var, hr.r]
    rfl
  congr 1
  · funext i; exact hdx i
  · funext m; exact hds m
  · funext k; exact applyInvY_rel hr.Hinv hy hx k
  · funext m
    rw [hds, hr.v, hr.r, hr.deltaAff]
    rfl

theorem alphaLoop_perm (val d : Fin M → ℝ) (tau : ℝ) (e : Equiv.Perm (Fin M)) :
    alphaLoop (fun m => val (e m)) (fun m => d (e m)) tau = alphaLoop val d tau := by
  have key : ∀ (val d : Fin M → ℝ) (e : Equiv.Perm (Fin M)),
      alphaLoop (fun m => val (e m)) (fun m => d (e m)) tau ≤ alphaLoop val d tau := by
    intro val d e
    obtain ⟨h1, h2, -⟩ := alphaLoop_spec (fun m => val (e m)) (fun m => d (e m)) tau
    obtain ⟨-, -, h3⟩ := alphaLoop_spec val d tau
    rcases h3 with h3 | ⟨i, hL, h3⟩
    · rw [h3]; exact h1
    · rw [h3]
      have := h2 (e.symm i) (by unfold Limits at hL ⊢; simpa using hL)
      simpa using this
  refine le_antisymm (key val d e) ?_
  have := key (fun m => val (e m)) (fun m => d (e m)) e.symm
  simpa using this

theorem computeAlpha_rel {st st' : IPState N M K ℝ} (hr : RelH σ κ e st st') (tau : ℝ) :
    computeAlpha st' tau = computeAlpha st tau := by
  unfold computeAlpha
  rw [hr.v, hr.delta]
  simp only [relabel, alphaLoop_perm]

theorem dot_perm (a b : Fin M → ℝ) (e : Equiv.Perm (Fin M)) : dot (fun m => a (e m)) (fun m => b (e m)) = dot a b := by
  rw [real_dot, real_dot]
  exact Equiv.sum_comp e fun m => a m * b m

theorem computeMu_rel {st st' : IPState N M K ℝ} (hv : st'.v = relabel σ κ e st.v) :
    computeMu st' = computeMu st := by
  unfold computeMu
  rw [hv]
  simp only [relabel, dot_perm]

theorem muAffine_rel {st st' : IPState N M K ℝ} (mu : ℝ) (ap : AlphaValues ℝ) (hr : RelH σ κ e st st') :
    muAffine mu ap st' = muAffine mu ap st := by
  unfold muAffine
  rw [hr.v, hr.deltaAff]
  simp only [relabel, dot_perm]

theorem direction_rel (h : Relabelled σ κ e p p') (mu : ℝ) (s : BarrierStrategy) {st st' : IPState N M K ℝ}
    (hr : RelH σ κ e st st') : RelH σ κ e (direction p mu s st).1 (direction p' mu s st').1 ∧
      (direction p' mu s st').2 = (direction p mu s st).2 := by
  unfold direction
  by_cases hM : 0 < M
  · rw [if_neg (not_not.mpr hM), if_neg (not_not.mpr hM)]
    by_cases hs : s ≠ .predictorCorrector
    · rw [if_pos hs, if_pos hs]
      exact ⟨solveForUpdate_rel h mu hr, rfl⟩
    · rw [if_neg hs, if_neg hs]
      dsimp only
      have h1 := solveForUpdate_rel h 0 hr
      have h2 : RelH σ κ e ({ solveForUpdate p 0 st with deltaAff := (solveForUpdate p 0 st).delta } : IPState N M K ℝ)
          { solveForUpdate p' 0 st' with deltaAff := (solveForUpdate p' 0 st').delta } :=
        ⟨⟨h1.v, h1.r, h1.wf, h1.wf'⟩, h1.Hinv, h1.delta, h1.delta⟩
      rw [computeAlpha_rel h1, muAffine_rel _ _ h2]
      exact ⟨solveForUpdate_rel h _ h2, rfl⟩
  · rw [if_pos hM, if_pos hM]
    exact ⟨solveForUpdate_rel h 0 hr, rfl⟩

theorem iterate_rel {E E' : Eigen N K ℝ} (hE : Respects σ κ E E') (h : Relabelled σ κ e p p') (mu : ℝ)
    (s : BarrierStrategy) {st st' : IPState N M K ℝ} (hr : Rel σ κ e st st') :
    Both (fun a a' => a'.1.v = relabel σ κ e a.1.v ∧ WF a.1 ∧ WF a'.1 ∧ a'.2 = a.2)
      (iterate E p mu s st) (iterate E' p' mu s st') := by
  unfold iterate
  rcases computeLDLT_rel hE h (evaluateKKT_rel h hr.v hr.wf hr.wf') with ⟨f, a, a', e1, e2⟩ | ⟨s1, s1', e1, e2, h1⟩
  · rw [e1, e2]
    exact .inl ⟨_, _, _, rfl, rfl⟩
  · rw [e1, e2]
    dsimp only
    obtain ⟨h2, h3⟩ := direction_rel h mu s h1
    refine .inr ⟨_, _, rfl, rfl, ?_, h2.wf, h2.wf', ?_⟩
    · rw [computeAlpha_rel h2]
      unfold applyStep relabel
      simp only
      rw [h2.v, h2.delta]
      rfl
    · rw [computeAlpha_rel h2, h3]

theorem norm2_perm {n : Nat} (a : Fin n → ℝ) (e : Equiv.Perm (Fin n)) : norm2 (fun m => a (e m)) = norm2 a := by
  rw [real_norm2, real_norm2]
  exact congrArg _ (Equiv.sum_comp e fun m => a m ^ 2)

theorem computeErrors_rel (mu : ℝ) {st st' : IPState N M K ℝ} (hr : Rel σ κ e st st') :
    computeErrors mu st' = computeErrors mu st := by
  have hv : vsum (fun m => st.r.s (e m)) = vsum st.r.s := by
    rw [real_vsum, real_vsum]
    exact Equiv.sum_comp e st.r.s
  have hq : squaredNorm (fun m => st.r.s (e m)) = squaredNorm st.r.s := dot_perm st.r.s st.r.s e
  unfold computeErrors
  rw [hr.r]
  simp only [relabel, norm2_perm, hv, hq]

theorem lagrangeSummary_perm : {K : Nat} → (y : Fin K → ℝ) → (κ : Equiv.Perm (Fin K)) →
    lagrangeSummary (fun k => y (κ k)) = lagrangeSummary y
  | 0, _, _ => rfl
  | K + 1, y, κ => by
    have hmin : ∀ y : Fin (K + 1) → ℝ, (∀ k, minCoeff y ≤ y k) ∧ ∃ k, minCoeff y = y k := minCoeff_spec
    have hmax : ∀ y : Fin (K + 1) → ℝ, (∀ k, y k ≤ maxCoeff y) ∧ ∃ k, maxCoeff y = y k := maxCoeff_spec
    have e1 : minCoeff (fun k => y (κ k)) = minCoeff y := by
      obtain ⟨k, hk⟩ := (hmin y).2
      obtain ⟨l, hl⟩ := (hmin fun k => y (κ k)).2
      refine le_antisymm ?_ (hl ▸ (hmin y).1 _)
      rw [hk]
      simpa using (hmin fun k => y (κ k)).1 (κ.symm k)
    have e2 : maxCoeff (fun k => Scalar.abs (y (κ k))) = maxCoeff fun k => Scalar.abs (y k) := by
      obtain ⟨k, hk⟩ := (hmax fun k => Scalar.abs (y k)).2
      obtain ⟨l, hl⟩ := (hmax fun k => Scalar.abs (y (κ k))).2
      refine le_antisymm (hl ▸ (hmax fun k => Scalar.abs (y k)).1 (κ l)) ?_
      rw [hk]
      simpa using (hmax fun k => Scalar.abs (y (κ k))).1 (κ.symm k)
    exact congrArg some (congrArg₂ QPLagrangeMultipliers.mk e1 e2)

theorem solveLoop_rel {E E' : Eigen N K ℝ} (hE : Respects σ κ E E') (h : Relabelled σ κ e p p') (prm : QPParams ℝ) :
    ∀ (n : Nat) (st st' : IPState N M K ℝ) (mu : ℝ) (log : List (QPIteration ℝ)), Rel σ κ e st st' →
    Both (fun a a' => a'.1.v = relabel σ κ e a.1.v ∧ a'.2 = a.2)
      (solveLoop E p prm n st mu log) (solveLoop E' p' prm n st' mu log) := by
  intro n
  induction n with
  | zero =>
    intro st st' mu log hr
    refine .inr ⟨_, _, rfl, rfl, hr.v, ?_⟩
    dsimp only
    rw [hr.v]
    simp only [relabel, lagrangeSummary_perm]
  | succ n ih =>
    intro st st' mu log hr
    simp only [solveLoop]
    rw [computeErrors_rel mu hr]
    rcases iterate_rel hE h mu prm.barrierStrategy hr with ⟨f, a, a', e1, e2⟩ | ⟨⟨s1, o⟩, ⟨s1', o'⟩, e1, e2, hv, hw, hw', ho⟩
    · rw [e1, e2]
      exact .inl ⟨_, _, _, rfl, rfl⟩
    · rw [e1, e2]
      dsimp only at hv ho ⊢
      subst ho
      have h2 := evaluateKKT_rel h hv hw hw'
      rw [computeErrors_rel mu h2, computeMu_rel h2.v]
      have hmu : ∀ ka, nextMu prm ka (evaluateKKT p' true s1') mu = nextMu prm ka (evaluateKKT p true s1) mu := by
        intro ka
        unfold nextMu
        rw [computeMu_rel h2.v]
      rw [hmu]
      split_ifs
      · refine .inr ⟨_, _, rfl, rfl, h2.v, ?_⟩
        dsimp only
        rw [h2.v]
        simp only [relabel, lagrangeSummary_perm]
      · exact ih _ _ _ _ h2

/-- The nearest point of a box is unique. -/
theorem nearest_unique (p : QP N M K ℝ) (x a b : Fin N → ℝ) (ha : ∀ m, 0 ≤ ineqVal p a m) (hb : ∀ m, 0 ≤ ineqVal p b m)
    (ha' : ∀ w, (∀ m, 0 ≤ ineqVal p w m) → ∀ j, |a j - x j| ≤ |w j - x j|)
    (hb' : ∀ w, (∀ m, 0 ≤ ineqVal p w m) → ∀ j, |b j - x j| ≤ |w j - x j|) : a = b := by
  funext j
  have hm : ∀ m, 0 ≤ ineqVal p (fun j => (a j + b j) / 2) m := by
    intro m
    have h1 := ha m
    have h2 := hb m
    unfold Spec.ineqVal at h1 h2 ⊢
    nlinarith
  have h1 := ha' _ hm j
  have h2 := hb' _ hm j
  have e0 : (a j + b j) / 2 - x j = ((a j - x j) + (b j - x j)) / 2 := by ring
  rw [e0] at h1 h2
  have h3 := ha' b hb j
  have h4 := hb' a ha j
  have h5 : |a j - x j| = |b j - x j| := le_antisymm h3 h4
  rcases abs_eq_abs.mp h5 with h | h
  · linarith
  · rw [h] at h1
    simp only [neg_add_cancel, zero_div, abs_zero, abs_neg] at h1
    have h6 : b j - x j = 0 := abs_eq_zero.mp (le_antisymm h1 (abs_nonneg _))
    rw [h6] at h
    linarith

theorem clampAll_error_of_zero (p : QP N M K ℝ) : ∀ (l : List (Fin M)) (x : Fin N → ℝ), (∃ m ∈ l, (p.con m).a = 0) →
    ∃ y, clampAll p l x = .error (.assertion "`a` cannot be zero", y) := by
  intro l x hz
  cases h : clampAll p l x with
  | ok x' =>
    obtain ⟨m, hm, h0⟩ := hz
    exact absurd h0 (clampAll_slopes p l x x' h m hm)
  | error q =>
    obtain ⟨f, y⟩ := q
    have := clampAll_fault p l x (f, y) h
    exact ⟨y, by rw [← this]⟩

theorem finishGuess_rel (h : Relabelled σ κ e p p') (hbox : ∃ w : Fin N → ℝ, ∀ m, 0 ≤ ineqVal p w m)
    {st st' : IPState N M K ℝ} (hx : st'.v.x = fun i => st.v.x (σ i)) (hy : st'.v.y = fun k => st.v.y (κ k))
    (hw : WF st) (hw' : WF st') :
    Both (fun a a' => a'.v = relabel σ κ e a.v ∧ WF a ∧ WF a') (finishGuess p st) (finishGuess p' st') := by
  have hval : ∀ (w : Fin N → ℝ) (m : Fin M), ineqVal p' (fun i => w (σ i)) m = ineqVal p w (e m) :=
    fun w m => h.ineqVal ⟨w, fun _ => 0, fun _ => 0, fun _ => 0⟩ m
  have hval' : ∀ (w : Fin N → ℝ) (m : Fin M), ineqVal p (fun i => w (σ.symm i)) (e m) = ineqVal p' w m := by
    intro w m
    rw [← hval]
    simp
  unfold finishGuess
  by_cases hz : ∃ m, (p.con m).a = 0
  · obtain ⟨m, hm⟩ := hz
    obtain ⟨y, e1⟩ := clampAll_error_of_zero p (List.finRange M) st.v.x ⟨m, List.mem_finRange m, hm⟩
    obtain ⟨y', e2⟩ := clampAll_error_of_zero p' (List.finRange M) st'.v.x
      ⟨e.symm m, List.mem_finRange _, by rw [h.a]; simpa using hm⟩
    rw [e1, e2]
    exact .inl ⟨_, _, _, rfl, rfl⟩
  · push Not at hz
    obtain ⟨a, e1, fa, na⟩ := C04_sequential_clamp p st.v.x hz hbox
    obtain ⟨w, hw0⟩ := hbox
    obtain ⟨a', e2, fa', na'⟩ := C04_sequential_clamp p' st'.v.x (fun m => by rw [h.a]; exact hz _)
      ⟨fun i => w (σ i), fun m => by rw [hval]; exact hw0 _⟩
    have hfw : ∀ w : Fin N → ℝ, (∀ m, 0 ≤ ineqVal p' w m) → ∀ m, 0 ≤ ineqVal p (fun i => w (σ.symm i)) m := by
      intro w hw m
      have := hval' w (e.symm m)
      rw [Equiv.apply_symm_apply] at this
      rw [this]
      exact hw _
    have heq : a' = fun i => a (σ i) := by
      refine nearest_unique p' st'.v.x a' _ fa' (fun m => by rw [hval]; exact fa _) na' ?_
      intro w hw j
      have := na _ (hfw w hw) (σ j)
      rw [hx]
      simpa using this
    rw [e1, e2]
    refine .inr ⟨_, _, rfl, rfl, ?_, hw, hw'⟩
    subst heq
    unfold relabel
    simp only [h.a, h.off, h.var, hy]

/-- The factorisation without inequalities. -/
theorem computeLDLT_false_rel {E E' : Eigen N K ℝ} (hE : Respects σ κ E E') (h : Relabelled σ κ e p p')
    {z z' : IPState N M K ℝ} (hw : WF z) (hw' : WF z') :
    Both (fun a a' => a'.Hinv = (fun r c => a.Hinv (redPerm σ κ r) (redPerm σ κ c)) ∧ a.v = z.v ∧ a'.v = z'.v ∧
      WF a ∧ WF a') (computeLDLT E p false z) (computeLDLT E' p' false z') := by
  unfold computeLDLT
  rw [if_pos (.inl rfl), if_pos (.inl rfl)]
  dsimp only
  rw [symRed_fillH_false p _ hw, symRed_fillH_false p' _ hw']
  have hm : kktMatrix p' = fun r c => kktMatrix p (redPerm σ κ r) (redPerm σ κ c) := by
    funext r c; exact h.kkt r c
  rw [hm, hE (kktMatrix p)]
  cases hl : E.ldltInverse (kktMatrix p) with
  | none => exact .inl ⟨_, _, _, rfl, rfl⟩
  | some Hi =>
    exact .inr ⟨_, _, rfl, rfl, rfl, rfl, rfl, fun k l => (fillH_br p false z k l).trans (hw k l),
      fun k l => (fillH_br p' false z' k l).trans (hw' k l)⟩

theorem initialGuess_rel {E E' : Eigen N K ℝ} (hE : Respects σ κ E E') (h : Relabelled σ κ e p p')
    (method : InitialGuessMethod) (hbox : method ≠ .userProvided → ∃ w : Fin N → ℝ, ∀ m, 0 ≤ ineqVal p w m)
    {st st' : IPState N M K ℝ} (hv : method = .userProvided → st'.v = relabel σ κ e st.v) (hw : WF st) (hw' : WF st') :
    Both (fun a a' => a'.v = relabel σ κ e a.v ∧ WF a ∧ WF a') (initialGuess E p method st)
      (initialGuess E' p' method st') := by
  cases method with
  | userProvided => exact .inr ⟨_, _, rfl, rfl, hv rfl, hw, hw'⟩
  | naive => exact finishGuess_rel h (hbox (by simp)) rfl rfl hw hw'
  | solveEqualityConstrained =>
    have hbox := hbox (by simp)
    unfold initialGuess
    dsimp only
    generalize hz : ({ st with v := { st.v with x := fun _ => 0, y := fun _ => 0 } } : IPState N M K ℝ) = z
    generalize hz' : ({ st' with v := { st'.v with x := fun _ => 0, y := fun _ => 0 } } : IPState N M K ℝ) = z'
    have hwz : WF z := hz ▸ hw
    have hwz' : WF z' := hz' ▸ hw'
    have hx : z.v.x = fun _ => 0 := by rw [← hz]
    have hy : z.v.y = fun _ => 0 := by rw [← hz]
    have hx' : z'.v.x = fun _ => 0 := by rw [← hz']
    have hy' : z'.v.y = fun _ => 0 := by rw [← hz']
    rcases computeLDLT_false_rel hE h hwz hwz' with ⟨f, a, a', e1, e2⟩ | ⟨a, a', e1, e2, hH, va, va', wa, wa'⟩
    · rw [e1, e2]
      exact .inl ⟨_, _, _, rfl, rfl⟩
    · rw [e1, e2]
      dsimp only
      have hrx : (evaluateKKT p' false a').r.x = fun i => (evaluateKKT p false a).r.x (σ i) := by
        funext i
        rw [evaluateKKT_false_rx, evaluateKKT_false_rx, va, va', hx, hy, hx', hy']
        simp [h.c]
      have hry : (evaluateKKT p' false a').r.y = fun k => (evaluateKKT p false a).r.y (κ k) := by
        funext k
        rw [evaluateKKT_ry, evaluateKKT_ry, va, va', hx, hx']
        simp [Spec.eqVal, h.b]
      have hHe : (evaluateKKT p' false a').Hinv
          = fun r c => (evaluateKKT p false a).Hinv (redPerm σ κ r) (redPerm σ κ c) := hH
      refine finishGuess_rel h hbox ?_ ?_ ?_ ?_
      · funext i; exact applyInvX_rel hHe hry hrx i
      · funext k; exact applyInvY_rel hHe hry hrx k
      · exact fun k l => WF_evaluateKKT (p := p) (b := false) wa k l
      · exact fun k l => WF_evaluateKKT (p := p') (b := false) wa' k l

/-- The whole call. -/
theorem solve_rel {E E' : Eigen N K ℝ} (hE : Respects σ κ E E') (h : Relabelled σ κ e p p') (prm : QPParams ℝ)
    (hbox : prm.initialGuessMethod ≠ .userProvided → ∃ w : Fin N → ℝ, ∀ m, 0 ≤ ineqVal p w m)
    {st st' : IPState N M K ℝ} (hv : prm.initialGuessMethod = .userProvided → st'.v = relabel σ κ e st.v)
    (hw : WF st) (hw' : WF st') :
    Both (fun a a' => a'.1.v = relabel σ κ e a.1.v ∧ a'.2 = a.2) (solve E p prm st) (solve E' p' prm st') := by
  unfold solve
  cases checkParams prm with
  | error f => exact .inl ⟨_, _, _, rfl, rfl⟩
  | ok _ =>
    dsimp only
    rcases initialGuess_rel hE h prm.initialGuessMethod hbox hv hw hw' with ⟨f, a, a', e1, e2⟩ |
      ⟨a, a', e1, e2, hva, wa, wa'⟩
    · rw [e1, e2]
      exact .inl ⟨_, _, _, rfl, rfl⟩
    · rw [e1, e2]
      dsimp only
      have hr := evaluateKKT_rel h hva wa wa'
      have hmu : initialMu prm (evaluateKKT p' true a') = initialMu prm (evaluateKKT p true a) := by
        unfold initialMu
        rw [computeMu_rel hr.v]
      rw [hmu]
      exact solveLoop_rel hE h prm _ _ _ _ _ hr

end sim

/-! ## The result does not depend on how the system is factorised -/

theorem computeLDLT_exact {E : Eigen N K ℝ} (hE : LDLTContract E) {p : QP N M K ℝ} {b : Bool}
    {st st1 : IPState N M K ℝ} (hsym : ∀ r c, symRed (fillH p b st) r c = symRed (fillH p b st) c r)
    (hu : IsUnit (Matrix.det (symRed (fillH p b st)))) (h : computeLDLT E p b st = .ok st1) :
    computeLDLT exactEigen p b st = .ok st1 := by
  have hok := computeLDLT_ok h
  have hmul := hE _ _ hsym hu hok.2.1
  have hinv : matInv (symRed (fillH p b st)) = st1.Hinv := Matrix.inv_eq_right_inv hmul
  unfold computeLDLT at h ⊢
  split_ifs at h ⊢ with hs
  dsimp only at h ⊢
  rw [hok.2.1] at h
  rw [show (exactEigen : Eigen N K ℝ).ldltInverse (symRed (fillH p b st)) = some st1.Hinv from congrArg some hinv]
  exact h

theorem iterate_exact {E : Eigen N K ℝ} (hE : LDLTContract E) {p : QP N M K ℝ} (hR : Regular p)
    {mu : ℝ} {s : BarrierStrategy} {st : IPState N M K ℝ} (hw : WF st) (hs : ∀ m, 0 < st.v.s m) (hz : ∀ m, 0 < st.v.z m)
    {r : IPState N M K ℝ × IPIterationOutputs ℝ} (h : iterate E p mu s st = .ok r) : iterate exactEigen p mu s st = .ok r := by
  obtain ⟨-, hsym, hu⟩ := C24_nonsingular p st hw hR hs hz
  unfold iterate at h ⊢
  cases hc : computeLDLT E p true (evaluateKKT p true st) with
  | error e => rw [hc] at h; cases h
  | ok st1 =>
    rw [hc] at h
    rw [computeLDLT_exact hE hsym hu hc]
    exact h

theorem solveLoop_exact {E : Eigen N K ℝ} (hE : LDLTContract E) {p : QP N M K ℝ} (hR : Regular p)
    (prm : QPParams ℝ) : ∀ (n : Nat) (st : IPState N M K ℝ) (mu : ℝ) (log : List (QPIteration ℝ))
    (r : IPState N M K ℝ × QPOutputs ℝ), WF st → (∀ m, 0 < st.v.s m) → (∀ m, 0 < st.v.z m) →
    solveLoop E p prm n st mu log = .ok r → solveLoop exactEigen p prm n st mu log = .ok r := by
  intro n
  induction n with
  | zero => intro st mu log r _ _ _ h; exact h
  | succ n ih =>
    intro st mu log r hw hs hz h
    simp only [solveLoop] at h ⊢
    cases hi : iterate E p mu prm.barrierStrategy st with
    | error e => rw [hi] at h; cases h
    | ok q =>
      obtain ⟨st1, o⟩ := q
      rw [hi] at h
      rw [iterate_exact hE hR hw hs hz hi]
      dsimp only at h ⊢
      have hpos := iterate_pos hi hz
      split_ifs at h ⊢ with ht
      · exact h
      · exact ih _ _ _ _ (WF_evaluateKKT (WF_iterate hw hi)) (by rw [evaluateKKT_v]; exact hpos.1)
          (by rw [evaluateKKT_v]; exact hpos.2) h

theorem solve_exact {E : Eigen N K ℝ} (hE : LDLTContract E) {p : QP N M K ℝ} (hR : Regular p)
    {prm : QPParams ℝ} (hG : prm.initialGuessMethod = .solveEqualityConstrained → PosDefOnNull p) {st : IPState N M K ℝ} (hw : WF st) (hg : GoodStart prm st)
    {r : IPState N M K ℝ × QPOutputs ℝ} (h : solve E p prm st = .ok r) : solve exactEigen p prm st = .ok r := by
  unfold solve at h ⊢
  cases hc : checkParams prm with
  | error e => rw [hc] at h; cases h
  | ok u =>
    rw [hc] at h
    dsimp only at h ⊢
    cases h0 : initialGuess E p prm.initialGuessMethod st with
    | error e => rw [h0] at h; cases h
    | ok st0 =>
      rw [h0] at h
      have hpos := goodStart_pos hg h0
      have hw0 := WF_initialGuess hw h0
      have h0' : initialGuess exactEigen p prm.initialGuessMethod st = .ok st0 := by
        unfold initialGuess at h0 ⊢
        cases hm : prm.initialGuessMethod with
        | userProvided => rw [hm] at h0; exact h0
        | naive => rw [hm] at h0; exact h0
        | solveEqualityConstrained =>
          rw [hm] at h0
          dsimp only at h0 ⊢
          generalize hzz : ({ st with v := { st.v with x := fun _ => 0, y := fun _ => 0 } } : IPState N M K ℝ) = z at h0 ⊢
          have hwz : WF z := hzz ▸ hw
          cases hl : computeLDLT E p false z with
          | error e => rw [hl] at h0; cases h0
          | ok s1 =>
            rw [hl] at h0
            have hk := symRed_fillH_false p z hwz
            rw [computeLDLT_exact hE (by rw [hk]; exact kktMatrix_symm p) (by rw [hk]; exact kktMatrix_nonsing p (hG hm) hR.rows) hl]
            exact h0
      rw [h0']
      exact solveLoop_exact hE hR prm _ _ _ _ _ (WF_evaluateKKT hw0) (by rw [evaluateKKT_v]; exact hpos.1)
        (by rw [evaluateKKT_v]; exact hpos.2) h

theorem exactEigen_respects (σ : Equiv.Perm (Fin N)) (κ : Equiv.Perm (Fin K)) :
    Respects σ κ (exactEigen : Eigen N K ℝ) exactEigen := by
  intro H
  show some (matInv _) = some _
  congr 1
  exact Matrix.inv_submatrix_equiv (Matrix.of H) (redPerm σ κ) (redPerm σ κ)

theorem respects_refl (E : Eigen N K ℝ) : Respects (Equiv.refl _) (Equiv.refl _) E E := by
  intro H
  have : ∀ r, redPerm (Equiv.refl (Fin N)) (Equiv.refl (Fin K)) r = r := by
    intro r; rcases r with i | k <;> rfl
  simp [this]

theorem Relabelled.quad {σ : Equiv.Perm (Fin N)} {κ : Equiv.Perm (Fin K)} {e : Equiv.Perm (Fin M)} {p p' : QP N M K ℝ}
    (h : Relabelled σ κ e p p') (x : Fin N → ℝ) :
    ∑ i, ∑ j, x (σ.symm i) * Gsym p i j * x (σ.symm j) = ∑ i, ∑ j, x i * Gsym p' i j * x j := by
  rw [← Equiv.sum_comp σ]
  refine Finset.sum_congr rfl fun i _ => ?_
  rw [← Equiv.sum_comp σ]
  refine Finset.sum_congr rfl fun j _ => ?_
  simp [h.G]

theorem Relabelled.null {σ : Equiv.Perm (Fin N)} {κ : Equiv.Perm (Fin K)} {e : Equiv.Perm (Fin M)} {p p' : QP N M K ℝ}
    (h : Relabelled σ κ e p p') (x : Fin N → ℝ) (hx : NullDir p' x) : NullDir p (fun i => x (σ.symm i)) := by
  intro k
  have := hx (κ.symm k)
  rw [← Equiv.sum_comp σ]
  simpa [h.A] using this

theorem Relabelled.nonzero (σ : Equiv.Perm (Fin N)) {x : Fin N → ℝ} (hx : x ≠ 0) : (fun i => x (σ.symm i)) ≠ 0 := by
  intro h0; apply hx; funext i
  have := congrFun h0 (σ i)
  simpa using this

theorem Relabelled.posDefOnNull {σ : Equiv.Perm (Fin N)} {κ : Equiv.Perm (Fin K)} {e : Equiv.Perm (Fin M)}
    {p p' : QP N M K ℝ} (h : Relabelled σ κ e p p') (hG : PosDefOnNull p) : PosDefOnNull p' := fun x hx hn =>
  lt_of_lt_of_eq (hG _ (nonzero σ hx) (h.null x hn)) (h.quad x)

theorem Relabelled.independent {σ : Equiv.Perm (Fin N)} {κ : Equiv.Perm (Fin K)} {e : Equiv.Perm (Fin M)}
    {p p' : QP N M K ℝ} (h : Relabelled σ κ e p p') (hA : IndependentRows p) : IndependentRows p' := by
  intro y hy
  have h1 := hA (fun k => y (κ.symm k)) (by
    intro j
    have := hy (σ.symm j)
    rw [← Equiv.sum_comp κ]
    simpa [h.A] using this)
  funext k
  have := congrFun h1 (κ k)
  simpa using this

theorem Relabelled.regular {σ : Equiv.Perm (Fin N)} {κ : Equiv.Perm (Fin K)} {e : Equiv.Perm (Fin M)} {p p' : QP N M K ℝ}
    (h : Relabelled σ κ e p p') (hR : Regular p) : Regular p' where
  rows := h.independent hR.rows
  psd x hn := le_of_le_of_eq (hR.psd _ (h.null x hn)) (h.quad x)
  pd x hx hn hc := lt_of_lt_of_eq (hR.pd _ (nonzero σ hx) (h.null x hn) (by
    intro m
    have := hc (e.symm m)
    have ha := h.a (e.symm m)
    have hv := h.var (e.symm m)
    rw [Equiv.apply_symm_apply] at ha hv
    rw [ha] at this
    rw [← hv]
    simpa using this)) (h.quad x)

/-! ## The properties -/

/-- **C82** (order of the inequality constraints). Let `p'` be `p` with its inequality constraints in another order, and
let the bounds be consistent (some point satisfies them all; not needed for a user-provided start). Then, whatever the
factorisation does, `Solve` on `p` and on `p'` throw the same exception, or both return: with the same outputs (the same
log, exit and multiplier summary), the same `x` and `y`, and with `s` and `z` in the other order. Nothing is assumed of
what the two objects hold, except that user-provided starts agree. -/
theorem C82_constraint_order (E : Eigen N K ℝ) (p : QP N M K ℝ) (e : Equiv.Perm (Fin M)) (prm : QPParams ℝ)
    (st st' : IPState N M K ℝ) (hr : Reachable E p st) (hr' : Reachable E { p with con := fun m => p.con (e m) } st')
    (hbox : prm.initialGuessMethod ≠ .userProvided → ∃ w : Fin N → ℝ, ∀ m, 0 ≤ ineqVal p w m)
    (hstart : prm.initialGuessMethod = .userProvided →
      st'.v = ⟨st.v.x, fun m => st.v.s (e m), st.v.y, fun m => st.v.z (e m)⟩) :
    observe (solve E { p with con := fun m => p.con (e m) } prm st') =
      match observe (solve E p prm st) with
      | .error f => .error f
      | .ok (v, out) => .ok (⟨v.x, fun m => v.s (e m), v.y, fun m => v.z (e m)⟩, out) := by
  have hl : Relabelled (Equiv.refl _) (Equiv.refl _) e p { p with con := fun m => p.con (e m) } :=
    ⟨fun _ _ => rfl, fun _ => rfl, fun _ _ => rfl, fun _ => rfl, fun _ => rfl, fun _ => rfl, fun _ => rfl⟩
  rcases solve_rel (respects_refl E) hl prm hbox (st := st) (st' := st') hstart hr.wf hr'.wf with
    ⟨f, a, a', e1, e2⟩ | ⟨⟨a, o⟩, ⟨a', o'⟩, e1, e2, hv, ho⟩
  · rw [e1, e2]; rfl
  · rw [e1, e2]
    dsimp only at hv ho
    subst ho
    simp only [observe, hv]
    rfl

/-- **C82** (the factorisation does not matter). Two factorisations that both give inverses when they report success
yield the same run: if `Solve` returns with both, the results are equal. -/
theorem C82_factorisation (E E' : Eigen N K ℝ) (hE : LDLTContract E) (hE' : LDLTContract E') (p : QP N M K ℝ)
    (hR : Regular p) (prm : QPParams ℝ) (hG : prm.initialGuessMethod = .solveEqualityConstrained → PosDefOnNull p) (st : IPState N M K ℝ) (hr : Reachable E p st)
    (hg : GoodStart prm st) (r r' : IPState N M K ℝ × QPOutputs ℝ) (h : solve E p prm st = .ok r)
    (h' : solve E' p prm st = .ok r') : r' = r := by
  have h1 := solve_exact hE hR hG hr.wf hg h
  have h2 := solve_exact hE' hR hG hr.wf hg h'
  rw [h1] at h2
  exact (Except.ok.inj h2).symm

/-- **C82** (names). Renumber the variables by `σ`, the equality rows by `κ` and the inequality constraints by `e`. For a
regular problem, whenever `Solve` returns on both problems, the outputs are the same
and the variables are renumbered accordingly. -/
theorem C82_relabel (E E' : Eigen N K ℝ) (hE : LDLTContract E) (hE' : LDLTContract E') (σ : Equiv.Perm (Fin N))
    (κ : Equiv.Perm (Fin K)) (e : Equiv.Perm (Fin M)) (p p' : QP N M K ℝ) (hl : Relabelled σ κ e p p')
    (hR : Regular p) (prm : QPParams ℝ) (hG : prm.initialGuessMethod = .solveEqualityConstrained → PosDefOnNull p) (st st' : IPState N M K ℝ) (hr : Reachable E p st)
    (hr' : Reachable E' p' st') (hg : GoodStart prm st)
    (hbox : prm.initialGuessMethod ≠ .userProvided → ∃ w : Fin N → ℝ, ∀ m, 0 ≤ ineqVal p w m)
    (hstart : prm.initialGuessMethod = .userProvided → st'.v = relabel σ κ e st.v)
    (r r' : IPState N M K ℝ × QPOutputs ℝ) (h : solve E p prm st = .ok r) (h' : solve E' p' prm st' = .ok r') :
    r'.1.v = relabel σ κ e r.1.v ∧ r'.2 = r.2 := by
  have hg' : GoodStart prm st' := by
    rcases hg with hg | ⟨h1, h2⟩
    · exact .inl hg
    · by_cases hu : prm.initialGuessMethod = .userProvided
      · rw [GoodStart, hstart hu]
        exact .inr ⟨fun m => h1 _, fun m => h2 _⟩
      · exact .inl hu
  have h1 := solve_exact hE hR hG hr.wf hg h
  have h2 := solve_exact hE' (hl.regular hR) (fun hm => hl.posDefOnNull (hG hm)) hr'.wf hg' h'
  rcases solve_rel (exactEigen_respects σ κ) hl prm hbox hstart hr.wf hr'.wf with
    ⟨f, a, a', e1, e2⟩ | ⟨a, a', e1, e2, hv⟩
  · rw [h1] at e1; cases e1
  · rw [h1] at e1
    rw [h2] at e2
    cases e1
    cases e2
    exact hv

/-- **C82** (inconsistent bounds). Without consistent bounds the order matters: from `0`, the bounds `x ≥ 1` and `x ≤ 0`
start the solver at `0` in this order and at `1` in the other. -/
theorem C82_inconsistent_bounds :
    let p : QP 1 2 0 ℝ := ⟨fun _ _ => 1, fun _ => 0, Fin.elim0, Fin.elim0, ![⟨0, 1, -1⟩, ⟨0, -1, 0⟩]⟩
    clampAll p (List.finRange 2) (fun _ => 0) = .ok (fun _ => 0) ∧
    clampAll { p with con := fun m => p.con (Equiv.swap 0 1 m) } (List.finRange 2) (fun _ => 0) = .ok (fun _ => 1) := by
  intro p
  have hl : List.finRange 2 = [0, 1] := by decide
  have hu : ∀ (a b : ℝ), Function.update (fun _ : Fin 1 => a) 0 b = fun _ => b := by
    intro a b; funext i; rw [Subsingleton.elim i 0]; simp
  have c1 : ∀ x : ℝ, (⟨0, 1, -1⟩ : Ineq ℝ).clampX x = .ok (max x 1) := by
    intro x
    obtain ⟨y, h1, h2⟩ := clampX_real ⟨0, 1, -1⟩ x (by norm_num)
    rw [h1, h2]
    norm_num
  have c2 : ∀ x : ℝ, (⟨0, -1, 0⟩ : Ineq ℝ).clampX x = .ok (min x 0) := by
    intro x
    obtain ⟨y, h1, h2⟩ := clampX_real ⟨0, -1, 0⟩ x (by norm_num)
    rw [h1, h2]
    norm_num
  constructor
  · rw [hl]
    simp [clampAll, p, Con.toIneq, c1, c2, hu]
  · rw [hl]
    simp [clampAll, p, Con.toIneq, c1, c2, hu]

/-- The demo problem with its two variables swapped. -/
noncomputable def demoSwapped : QP 2 1 1 ℝ where
  G := !![1, 9; 0, 1]
  c := ![-2, -1]
  A := fun _ => ![1, 1]
  b := ![-1]
  con := fun _ => ⟨1, 1, -1 / 5⟩

theorem demo_relabelled :
    Relabelled (Equiv.swap 0 1) (Equiv.refl _) (Equiv.refl _) demoQP demoSwapped where
  G i j := by fin_cases i <;> fin_cases j <;> simp [Gsym, demoQP, demoSwapped]
  c i := by fin_cases i <;> simp [demoQP, demoSwapped]
  A k i := by fin_cases i <;> simp [demoQP, demoSwapped]
  b _ := rfl
  var m := by simp [demoQP, demoSwapped]
  a _ := rfl
  off _ := rfl

/-- Both runs return (so the hypotheses of `C82_relabel` can be met with different problems). -/
example : ∃ r r', solve exactEigen demoQP QPParams.default (setupState demoJunk) = .ok r ∧
    solve exactEigen demoSwapped QPParams.default (setupState demoJunk) = .ok r' ∧
    r'.1.v = relabel (Equiv.swap 0 1) (Equiv.refl _) (Equiv.refl _) r.1.v ∧ r'.2 = r.2 := by
  obtain ⟨r, hr⟩ := demo_returns QPParams.default default_valid (by simp [QPParams.default])
  have hw : WF (setupState (demoJunk : IPState 2 1 1 ℝ)) := fun _ _ => rfl
  rcases solve_rel (exactEigen_respects (Equiv.swap 0 1) (Equiv.refl _)) demo_relabelled QPParams.default
    (fun _ => ⟨fun _ => 1, fun m => by simp [Spec.ineqVal, demoQP]; norm_num⟩) (st := setupState demoJunk)
    (st' := setupState demoJunk) (by simp [QPParams.default]) hw hw with ⟨f, a, a', e1, e2⟩ | ⟨a, a', e1, e2, hv⟩
  · rw [hr] at e1; cases e1
  · exact ⟨a, a', e1, e2, hv⟩

end MiniOpt.Props
