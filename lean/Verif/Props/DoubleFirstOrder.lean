import Verif.Props.DoubleHessian
import Verif.Props.FirstOrder

/-!
# C106: slopes and the first-order exit in doubles
-/

set_option autoImplicit false

namespace MiniOpt.Props

open MiniOpt MiniOpt.Spec MiniOpt.NLS MiniOpt.F64

variable {L : Libm} {n D : Nat}

/-! ### The exact model -/

/-- The bilinear form of the exact model. -/
noncomputable def modelForm (p : Problem D (Dbl L)) (x : Fin n → Dbl L) (lam : ℝ) (u v : Fin D → ℝ) : ℝ :=
  (p.costs.map fun r => ∑ k, (∑ j, exactJac r x D k j * u j) * ∑ j, exactJac r x D k j * v j).sum
    + max lam 0 * ∑ i, u i * v i

theorem sum_map_add {β : Type} (l : List β) (f g : β → ℝ) : (l.map fun a => f a + g a).sum = (l.map f).sum + (l.map g).sum := by
  induction l with
  | nil => simp
  | cons a l ih => simp only [List.map_cons, List.sum_cons, ih]; ring

theorem sum_map_mul {β : Type} (l : List β) (c : ℝ) (f : β → ℝ) : (l.map fun a => c * f a).sum = c * (l.map f).sum := by
  induction l with
  | nil => simp
  | cons a l ih => simp only [List.map_cons, List.sum_cons, ih]; ring

theorem curvature_expand (p : Problem D (Dbl L)) (x : Fin n → Dbl L) (lam : ℝ) (u v : Fin D → ℝ) (t : ℝ) :
    exactCurvature p x lam (fun i => u i + t * v i)
      = exactCurvature p x lam u + 2 * t * modelForm p x lam u v + t ^ 2 * exactCurvature p x lam v := by
  have e1 : ∀ r : Residual (Dbl L), (∑ k, (∑ j, exactJac r x D k j * (u j + t * v j)) ^ 2)
      = (∑ k, (∑ j, exactJac r x D k j * u j) ^ 2)
        + (2 * t * (∑ k, (∑ j, exactJac r x D k j * u j) * ∑ j, exactJac r x D k j * v j)
        + t ^ 2 * ∑ k, (∑ j, exactJac r x D k j * v j) ^ 2) := by
    intro r
    rw [Finset.mul_sum, Finset.mul_sum, ← Finset.sum_add_distrib, ← Finset.sum_add_distrib]
    refine Finset.sum_congr rfl fun k _ => ?_
    have : (∑ j, exactJac r x D k j * (u j + t * v j))
        = (∑ j, exactJac r x D k j * u j) + t * ∑ j, exactJac r x D k j * v j := by
      rw [Finset.mul_sum, ← Finset.sum_add_distrib]
      exact Finset.sum_congr rfl fun j _ => by ring
    rw [this]; ring
  have e2 : (∑ i, (u i + t * v i) ^ 2) = (∑ i, u i ^ 2) + (2 * t * (∑ i, u i * v i) + t ^ 2 * ∑ i, v i ^ 2) := by
    rw [Finset.mul_sum, Finset.mul_sum, ← Finset.sum_add_distrib, ← Finset.sum_add_distrib]
    exact Finset.sum_congr rfl fun i _ => by ring
  unfold exactCurvature modelForm
  simp only [e1, e2, sum_map_add, sum_map_mul]
  ring

theorem exactCurvature_nonneg (p : Problem D (Dbl L)) (x : Fin n → Dbl L) (lam : ℝ) (u : Fin D → ℝ) :
    0 ≤ exactCurvature p x lam u := by
  refine add_nonneg (List.sum_nonneg fun a ha => ?_) (mul_nonneg (le_max_right _ _) (Finset.sum_nonneg fun i _ => sq_nonneg _))
  obtain ⟨r, -, rfl⟩ := List.mem_map.mp ha
  exact Finset.sum_nonneg fun k _ => sq_nonneg _

theorem abs_modelForm_le (p : Problem D (Dbl L)) (x : Fin n → Dbl L) (lam : ℝ) (u v : Fin D → ℝ) :
    |modelForm p x lam u v| ≤ Real.sqrt (exactCurvature p x lam u * exactCurvature p x lam v) := by
  refine Real.abs_le_sqrt ?_
  have h : ∀ t : ℝ, 0 ≤ exactCurvature p x lam v * (t * t) + 2 * modelForm p x lam u v * t + exactCurvature p x lam u := by
    intro t
    have := exactCurvature_nonneg p x lam fun i => u i + t * v i
    rw [curvature_expand] at this
    nlinarith
  have := discrim_le_zero h
  unfold discrim at this
  nlinarith

theorem modelForm_self (p : Problem D (Dbl L)) (x : Fin n → Dbl L) (lam : ℝ) (u : Fin D → ℝ) :
    modelForm p x lam u u = exactCurvature p x lam u := by
  unfold modelForm exactCurvature
  simp only [sq]

/-- The gradient of the model at `dx`, along `d`. -/
theorem model_along (p : Problem D (Dbl L)) (x : Fin n → Dbl L) (lam : ℝ) (dx d : Fin D → ℝ) :
    ∑ i, gaussNewtonGradient p x lam dx i * d i = exactSlope p x d + modelForm p x lam dx d := by
  have e1 : ∀ l : List (Residual (Dbl L)),
      ∑ i, (l.map fun r => ∑ k, exactJac r x D k i * (realVal (valueAt r x k) + ∑ j, exactJac r x D k j * dx j)).sum * d i
        = (∑ i, (l.map fun r => ∑ k, exactJac r x D k i * realVal (valueAt r x k)).sum * d i)
          + (l.map fun r => ∑ k, (∑ j, exactJac r x D k j * dx j) * ∑ j, exactJac r x D k j * d j).sum := by
    intro l
    induction l with
    | nil => simp
    | cons r l ih =>
      simp only [List.map_cons, List.sum_cons, add_mul, Finset.sum_add_distrib, ih]
      have : (∑ i, (∑ k, exactJac r x D k i * (realVal (valueAt r x k) + ∑ j, exactJac r x D k j * dx j)) * d i)
          = (∑ i, (∑ k, exactJac r x D k i * realVal (valueAt r x k)) * d i)
            + ∑ k, (∑ j, exactJac r x D k j * dx j) * ∑ j, exactJac r x D k j * d j := by
        have e : (∑ k, (∑ j, exactJac r x D k j * dx j) * ∑ j, exactJac r x D k j * d j)
            = ∑ i, (∑ k, exactJac r x D k i * ∑ j, exactJac r x D k j * dx j) * d i := by
          refine Eq.trans ?_ (Finset.sum_congr rfl fun i _ => (Finset.sum_mul ..).symm)
          rw [Finset.sum_comm]
          refine Finset.sum_congr rfl fun k _ => ?_
          rw [Finset.mul_sum]
          exact Finset.sum_congr rfl fun i _ => by ring
        rw [e, ← Finset.sum_add_distrib]
        refine Finset.sum_congr rfl fun i _ => ?_
        rw [← add_mul, ← Finset.sum_add_distrib]
        refine congrArg (· * d i) (Finset.sum_congr rfl fun k _ => by ring)
      rw [this]; ring
  unfold gaussNewtonGradient exactSlope modelForm exactGradient
  simp only [add_mul, Finset.sum_add_distrib]
  rw [e1, Finset.mul_sum]
  simp only [mul_assoc]
  ring

/-! ### The slope -/

theorem gradMag_nonneg (p : Problem D (Dbl L)) (x : Fin n → Dbl L) (i : Fin D) : 0 ≤ gradientMagnitude p x i := by
  refine List.sum_nonneg fun a ha => ?_
  obtain ⟨r, -, rfl⟩ := List.mem_map.mp ha
  exact Finset.sum_nonneg fun k _ => abs_nonneg _

theorem abs_gradient_le (p : Problem D (Dbl L)) (x : Fin n → Dbl L) (i : Fin D) :
    |exactGradient p x i| ≤ gradientMagnitude p x i := by
  unfold exactGradient gradientMagnitude
  induction p.costs with
  | nil => simp
  | cons r l ih =>
    simp only [List.map_cons, List.sum_cons]
    exact (abs_add_le _ _).trans (add_le_add (Finset.abs_sum_le_sum_abs _ _) ih)

/-- **C106**, the slope. The derivative of the cost along the step that an iteration logs (`d_f`), when it is finite, is the
exact slope of the cost at the current variables along the step, up to the rounding errors made in computing the gradient and
the scalar product. -/
theorem C106_slope (hL : AddsUp L) (env : Env n D (Dbl L)) (prm : NLSParams (Dbl L)) (x0 : Fin n → Dbl L) (o o' : env.Obj)
    (out : NLSOutputs (Dbl L)) (calls : List (NLSIteration (Dbl L))) (h : solve env prm x0 o = .ok (o', out, calls))
    (hp : ∀ r ∈ env.p.costs, IdxIn r n ∧ IdxIn r D ∧ Distinct r ∧ Consistent r)
    (k : Nat) (it : NLSIteration (Dbl L)) (hit : out.iterations[k]? = some it)
    (a b : env.Obj) (ha : After env prm x0 o k a) (hb : After env prm x0 o (k + 1) b)
    (hfin : Dbl.Finite it.directionalDerivatives.dF) :
    (∀ i, Dbl.Finite (b.dx i)) ∧
    |realVal it.directionalDerivatives.dF - exactSlope env.p a.vars fun i => realVal (b.dx i)|
      ≤ slopeError env.p a.vars fun i => realVal (b.dx i) := by
  obtain ⟨h1, h2, -⟩ := C38_direction env prm x0 o o' out calls h k it hit a b ha hb
  obtain ⟨-, -, g3⟩ := near_linearize hL env.p a.vars it.lambda a.qp b.qp it.errorsInitial h1 hp
  rw [h2] at hfin ⊢
  obtain ⟨nd, fd⟩ := near_dot hL b.qp.c b.dx hfin
  refine ⟨fun i => (fd i).2, ?_⟩
  have hc : ∀ i, |realVal (b.qp.c i) - exactGradient env.p a.vars i|
      ≤ slop (normalOps env.p) (normalOps env.p) (gradientMagnitude env.p a.vars i) := fun i => by
    rw [realVal_eq (b.qp.c i)]; exact (g3 i (fd i).1).err
  have e1 : |realVal (costDerivative b.qp b.dx).dF - ∑ i, realVal (b.qp.c i) * realVal (b.dx i)|
      ≤ slop D D (∑ i, |realVal (b.qp.c i) * realVal (b.dx i)|) := by
    rw [realVal_eq (costDerivative b.qp b.dx).dF]; exact nd.err
  have e2 : slop D D (∑ i, |realVal (b.qp.c i) * realVal (b.dx i)|)
      ≤ slop D D (∑ i, (gradientMagnitude env.p a.vars i
        + slop (normalOps env.p) (normalOps env.p) (gradientMagnitude env.p a.vars i)) * |realVal (b.dx i)|) := by
    refine slop_mono le_rfl le_rfl (Finset.sum_nonneg fun i _ => abs_nonneg _) (Finset.sum_le_sum fun i _ => ?_)
    rw [abs_mul]
    refine mul_le_mul_of_nonneg_right ?_ (abs_nonneg _)
    have := abs_sub_abs_le_abs_sub (realVal (b.qp.c i)) (exactGradient env.p a.vars i)
    have := hc i
    have := abs_gradient_le env.p a.vars i
    linarith
  have e3 : |(∑ i, realVal (b.qp.c i) * realVal (b.dx i)) - exactSlope env.p a.vars fun i => realVal (b.dx i)|
      ≤ ∑ i, slop (normalOps env.p) (normalOps env.p) (gradientMagnitude env.p a.vars i) * |realVal (b.dx i)| := by
    unfold exactSlope
    rw [← Finset.sum_sub_distrib]
    refine (Finset.abs_sum_le_sum_abs _ _).trans (Finset.sum_le_sum fun i _ => ?_)
    rw [← sub_mul, abs_mul]
    exact mul_le_mul_of_nonneg_right (hc i) (abs_nonneg _)
  unfold slopeError
  refine (abs_sub_le _ (∑ i, realVal (b.qp.c i) * realVal (b.dx i)) _).trans ?_
  linarith

/-! ### Unconstrained problems -/

theorem gradMagnitude_le (hL : AddsUp L) (p : Problem D (Dbl L)) (x : Fin n → Dbl L) (lam : Dbl L)
    (qp0 qp : QPData D p.M p.K (Dbl L)) (pre : Errors (Dbl L)) (h : linearize p x lam qp0 = .ok (qp, pre))
    (hp : ∀ r ∈ p.costs, IdxIn r n ∧ IdxIn r D ∧ Distinct r ∧ Consistent r) (hi : p.ineq = []) (he : p.eqs = [])
    (hcon : ∀ i, 0 ≤ (qp.con i).var ∧ (qp.con i).var < (D : Int)) (v : Blocks D p.M p.K ℝ)
    (hG : ∀ i j, IsFin (symLower (qp.typed hcon).G i j)) (hc : ∀ i, IsFin (qp.c i)) (i : Fin D) :
    gradMagnitude (realQP (qp.typed hcon)) v i
      ≤ modelMagnitude p x (realVal lam) v.x i + setupError p x (realVal lam) v.x i := by
  obtain ⟨g1, -, g3⟩ := near_linearize hL p x lam qp0 qp pre h hp
  have hM : p.M = 0 := by simp [Problem.M, hi]
  have hK : p.K = 0 := by simp [Problem.K, he]
  have eM : (Finset.univ : Finset (Fin p.M)) = ∅ := by
    ext m; exact absurd m.2 (by omega)
  have eK : (Finset.univ : Finset (Fin p.K)) = ∅ := by
    ext m; exact absurd m.2 (by omega)
  have hN : ∀ i j, |exactNormal p x i j| ≤ normalMagnitude p x i j := by
    intro i j
    unfold exactNormal normalMagnitude
    induction p.costs with
    | nil => simp
    | cons r l ih =>
      simp only [List.map_cons, List.sum_cons]
      exact (abs_add_le _ _).trans (add_le_add (Finset.abs_sum_le_sum_abs _ _) ih)
  unfold gradMagnitude modelMagnitude setupError
  rw [eM, eK, Finset.sum_empty, Finset.sum_empty, add_zero, add_zero]
  have hc' : |realVal (qp.c i)| ≤ gradientMagnitude p x i + slop (normalOps p) (normalOps p) (gradientMagnitude p x i) := by
    have h1 := (g3 i (hc i)).err
    rw [← realVal_eq] at h1
    have := abs_sub_abs_le_abs_sub (realVal (qp.c i)) (exactGradient p x i)
    have := abs_gradient_le p x i
    linarith
  have hlam : ∀ j, |(if i = j then max (realVal lam) 0 else 0 : ℝ)| = if i = j then max (realVal lam) 0 else 0 := by
    intro j
    split_ifs
    · exact abs_of_nonneg (le_max_right _ _)
    · exact abs_zero
  have hG' : ∀ j, |Gsym (realQP (qp.typed hcon)) i j * v.x j|
      ≤ (normalMagnitude p x i j + if i = j then max (realVal lam) 0 else 0) * |v.x j|
        + slop (normalOps p + 1) (normalOps p) (normalMagnitude p x i j + if i = j then max (realVal lam) 0 else 0)
          * |v.x j| := by
    intro j
    rw [abs_mul, ← add_mul]
    refine mul_le_mul_of_nonneg_right ?_ (abs_nonneg _)
    rw [← realVal_symLower]
    have hfin := hG i j
    have key : |realVal (symLower (qp.typed hcon).G i j) - (exactNormal p x i j + if i = j then max (realVal lam) 0 else 0)|
        ≤ slop (normalOps p + 1) (normalOps p) (normalMagnitude p x i j + if i = j then max (realVal lam) 0 else 0) := by
      rcases le_total j i with hij | hij
      · have e : symLower (qp.typed hcon).G i j = qp.G i j := by
          unfold symLower; rw [if_pos hij]; rfl
        rw [e] at hfin ⊢
        rw [realVal_eq (qp.G i j)]
        exact (g1 i j hij hfin).err
      · have e : symLower (qp.typed hcon).G i j = qp.G j i := by
          unfold symLower
          by_cases hji : j ≤ i
          · rw [if_pos hji, le_antisymm hij hji]; rfl
          · rw [if_neg hji]; rfl
        rw [e] at hfin ⊢
        rw [realVal_eq (qp.G j i), normal_symm, normalMag_symm]
        have := (g1 j i hij hfin).err
        simp only [eq_comm (a := j) (b := i)] at this
        exact this
    have t1 := abs_sub_abs_le_abs_sub (realVal (symLower (qp.typed hcon).G i j))
      (exactNormal p x i j + if i = j then max (realVal lam) 0 else 0)
    have t2 := (abs_add_le (exactNormal p x i j) (if i = j then max (realVal lam) 0 else 0)).trans
      (add_le_add (hN i j) (hlam j).le)
    linarith
  have := (Finset.sum_le_sum fun j (_ : j ∈ Finset.univ) => hG' j)
  rw [Finset.sum_add_distrib] at this
  have hc2 : |(realQP (qp.typed hcon)).c i| = |realVal (qp.c i)| := rfl
  rw [hc2]
  linarith

/-- The step of an unconstrained iteration whose QP was solved, in exact terms. -/
theorem unconstrained_step (hL : AddsUp L) (env : Env n D (Dbl L)) (prm : NLSParams (Dbl L)) (x0 : Fin n → Dbl L)
    (o o' : env.Obj) (out : NLSOutputs (Dbl L)) (calls : List (NLSIteration (Dbl L)))
    (h : solve env prm x0 o = .ok (o', out, calls))
    (hp : ∀ r ∈ env.p.costs, IdxIn r n ∧ IdxIn r D ∧ Distinct r ∧ Consistent r) (hi : env.p.ineq = []) (he : env.p.eqs = [])
    (k : Nat) (it : NLSIteration (Dbl L)) (hit : out.iterations[k]? = some it) (q : QPOutputs (Dbl L))
    (hq : it.qpOutputs = .interiorPoint q) (hT : q.termination = .satisfiedKktTol) (htol : Dbl.Finite prm.terminationKktTol)
    (a b : env.Obj) (ha : After env prm x0 o k a) (hb : After env prm x0 o (k + 1) b) :
    (∀ i, Dbl.Finite (b.dx i)) ∧
    l2 (gaussNewtonGradient env.p a.vars (realVal it.lambda) fun i => realVal (b.dx i))
      ≤ stationaryError env.p a.vars (realVal it.lambda) (realVal prm.terminationKktTol) fun i => realVal (b.dx i) := by
  have hM : env.p.M = 0 := by simp [Problem.M, hi]
  have hK : env.p.K = 0 := by simp [Problem.K, he]
  have eM : (Finset.univ : Finset (Fin env.p.M)) = ∅ := by
    ext m; exact absurd m.2 (by omega)
  have eK : (Finset.univ : Finset (Fin env.p.K)) = ∅ := by
    ext m; exact absurd m.2 (by omega)
  obtain ⟨h1, -, h3⟩ := C38_direction env prm x0 o o' out calls h k it hit a b ha hb
  rcases h3 with ⟨hcon, s, s', q', hs, hq', hdx⟩ | ⟨s, s', _, hq', _⟩
  swap
  · rw [hq] at hq'; cases hq'
  rw [hq] at hq'
  cases hq'
  have hnan : ∀ iq, q.iterations.getLast? = some iq → iq.kktFinal.rPrimalEq ≠ F64.nan ∧ iq.kktFinal.rPrimalIneq ≠ F64.nan := by
    intro iq hiq
    obtain ⟨s1, it', mu, -, -, hit', hk⟩ := fresh_final hs
    rw [show q.iterations.getLast? = some iq from hiq] at hit'
    obtain rfl := Option.some.inj hit'
    rw [hk]
    simp only [IP.computeErrors, hM, hK, lt_irrefl, if_false]
    constructor <;> intro e <;> cases e
  obtain ⟨d1, d2⟩ := solved_finite hL env.E (b.qp.typed hcon) (qpParams env.p prm) _ _ hs hT htol
  obtain ⟨f, hcon', v, hv, hst⟩ := C104_step hL env prm x0 o o' out calls h hp k it hit q hq hT htol hnan a b ha hb
  refine ⟨f, ?_⟩
  have hvx : v.x = fun i => realVal (b.dx i) := funext hv
  rw [eM, eK, hvx] at hst
  simp only [Finset.sum_empty, sub_zero] at hst
  refine hst.trans ?_
  unfold stationaryError
  refine add_le_add_left (add_le_add_right ?_ _) _
  unfold l2
  refine Real.sqrt_le_sqrt (Finset.sum_le_sum fun i _ => ?_)
  have hm := gradMagnitude_le hL env.p a.vars it.lambda a.qp b.qp it.errorsInitial h1 hp hi he hcon' v d1 d2 i
  rw [hvx] at hm
  have h0 : 0 ≤ gradMagnitude (realQP (b.qp.typed hcon')) v i := by
    unfold gradMagnitude
    refine add_nonneg (add_nonneg (add_nonneg (Finset.sum_nonneg fun j _ => abs_nonneg _) (abs_nonneg _))
      (Finset.sum_nonneg fun j _ => abs_nonneg _)) (Finset.sum_nonneg fun m _ => ?_)
    split_ifs
    · exact abs_nonneg _
    · exact le_rfl
  refine pow_le_pow_left₀ ?_ ?_ 2
  · exact slop_nonneg h0
  · exact slop_mono (by omega) (by omega) h0 hm

/-- **C106**, descent. In an iteration of an unconstrained problem whose QP is reported solved, the exact slope of the cost along
the step is negative, and as large as the exact curvature of the model along it - up to the tolerance and the rounding errors,
multiplied by the length of the step. -/
theorem C106_descent_direction (hL : AddsUp L) (env : Env n D (Dbl L)) (prm : NLSParams (Dbl L)) (x0 : Fin n → Dbl L)
    (o o' : env.Obj) (out : NLSOutputs (Dbl L)) (calls : List (NLSIteration (Dbl L)))
    (h : solve env prm x0 o = .ok (o', out, calls))
    (hp : ∀ r ∈ env.p.costs, IdxIn r n ∧ IdxIn r D ∧ Distinct r ∧ Consistent r) (hi : env.p.ineq = []) (he : env.p.eqs = [])
    (k : Nat) (it : NLSIteration (Dbl L)) (hit : out.iterations[k]? = some it) (q : QPOutputs (Dbl L))
    (hq : it.qpOutputs = .interiorPoint q) (hT : q.termination = .satisfiedKktTol) (htol : Dbl.Finite prm.terminationKktTol)
    (a b : env.Obj) (ha : After env prm x0 o k a) (hb : After env prm x0 o (k + 1) b) :
    |exactSlope env.p a.vars (fun i => realVal (b.dx i))
        + exactCurvature env.p a.vars (realVal it.lambda) fun i => realVal (b.dx i)|
      ≤ stationaryError env.p a.vars (realVal it.lambda) (realVal prm.terminationKktTol) (fun i => realVal (b.dx i))
        * l2 fun i => realVal (b.dx i) := by
  obtain ⟨-, h1⟩ := unconstrained_step hL env prm x0 o o' out calls h hp hi he k it hit q hq hT htol a b ha hb
  rw [← modelForm_self, ← model_along]
  exact (abs_sum_mul_le_l2 _ _).trans (mul_le_mul_of_nonneg_right h1 (l2_nonneg _))

/-- **C106**, exit. After `SATISFIED_FIRST_ORDER_TOL` on an unconstrained problem, if the last QP was reported solved, the
returned variables are a stationary point of the cost in exact arithmetic, up to the tolerances and rounding errors: the exact
slope along every direction `d` is bounded by `√(κ(d) δ) + ε ‖d‖`, where `κ(d)` is the curvature of the Gauss-Newton model
along `d`, `ε` how far the last step `dx` may be from solving the model, and `δ` is `absolute_first_derivative_tol` plus the
rounding errors of the slope along `dx` plus `ε ‖dx‖`. -/
theorem C106_first_order_exit (hL : AddsUp L) (env : Env n D (Dbl L)) (prm : NLSParams (Dbl L)) (x0 : Fin n → Dbl L)
    (o o' : env.Obj) (out : NLSOutputs (Dbl L)) (calls : List (NLSIteration (Dbl L)))
    (h : solve env prm x0 o = .ok (o', out, calls))
    (hp : ∀ r ∈ env.p.costs, IdxIn r n ∧ IdxIn r D ∧ Distinct r ∧ Consistent r) (hi : env.p.ineq = []) (he : env.p.eqs = [])
    (hT : out.termination = .satisfiedFirstOrderTol) (htol1 : Dbl.Finite prm.absoluteFirstDerivativeTol)
    (htol : Dbl.Finite prm.terminationKktTol)
    (hq : ∀ it, out.iterations.getLast? = some it →
      ∃ q, it.qpOutputs = .interiorPoint q ∧ q.termination = .satisfiedKktTol) :
    ∃ (it : NLSIteration (Dbl L)) (b : env.Obj), out.iterations.getLast? = some it ∧
      After env prm x0 o out.iterations.length b ∧ (∀ i, Dbl.Finite (b.dx i)) ∧
      let dx := fun i => realVal (b.dx i)
      let ε := stationaryError env.p o'.vars (realVal it.lambda) (realVal prm.terminationKktTol) dx
      let δ := realVal prm.absoluteFirstDerivativeTol + slopeError env.p o'.vars dx + ε * l2 dx
      exactCurvature env.p o'.vars (realVal it.lambda) dx ≤ δ ∧
      ∀ d : Fin D → ℝ, |exactSlope env.p o'.vars d|
        ≤ Real.sqrt (exactCurvature env.p o'.vars (realVal it.lambda) d * δ) + ε * l2 d := by
  have hC := C46_termination env prm x0 o o' out calls h
  rw [hT] at hC
  obtain ⟨it, hlast, hs, hlt⟩ := hC
  obtain ⟨q, hq1, hq2⟩ := hq it hlast
  have hne : out.iterations ≠ [] := fun e => by rw [e] at hlast; cases hlast
  have hlen := List.length_pos_iff.mpr hne
  obtain ⟨hex, -, hfinal⟩ := C38_after env prm x0 o o' out calls h
  obtain ⟨a, ha, -⟩ := hex (out.iterations.length - 1) (by omega)
  obtain ⟨b, hb, -⟩ := hex out.iterations.length le_rfl
  have hidx : out.iterations[out.iterations.length - 1]? = some it := by rw [← List.getLast?_eq_getElem?]; exact hlast
  have hb' : After env prm x0 o (out.iterations.length - 1 + 1) b := by rw [Nat.sub_add_cancel hlen]; exact hb
  have hmove := (C38_variables_move env prm x0 o o' out calls h _ it hidx a b ha hb').2 (by rw [hs]; decide)
  have hvars : a.vars = o'.vars := hmove.symm.trans (hfinal b hb)
  obtain ⟨hdF, -⟩ := dbl_cmax_lt hlt
  have hfin : Dbl.Finite it.directionalDerivatives.dF ∧
      |realVal it.directionalDerivatives.dF| ≤ realVal prm.absoluteFirstDerivativeTol := by
    generalize it.directionalDerivatives.dF = u at hdF
    obtain ⟨t, m', ht⟩ := isFinite_iff.mp htol1
    have hlt' : F64.lt (F64.abs u) prm.absoluteFirstDerivativeTol = true := hdF
    rw [realVal_eq u, realVal_eq, ht] at *
    cases u with
    | nan => cases hlt'
    | inf s => cases hlt'
    | fin s m =>
      refine ⟨rfl, ?_⟩
      have : F64.value false m < F64.value t m' := of_decide_eq_true hlt'
      have e := (Approx.abs_exact (x := .fin s m) rfl).err
      have : ((F64.value false m : ℚ) : ℝ) ≤ ((F64.value t m' : ℚ) : ℝ) := by exact_mod_cast this.le
      have e2 : fval (F64.abs (.fin s m)) = ((F64.value false m : ℚ) : ℝ) := rfl
      have e3 : slop 0 0 |fval (.fin s m)| = 0 := by simp [slop]
      rw [e3, e2] at e
      have := abs_nonpos_iff.mp e
      show |fval (.fin s m)| ≤ ((F64.value t m' : ℚ) : ℝ)
      linarith
  obtain ⟨f1, hslope⟩ := C106_slope hL env prm x0 o o' out calls h hp _ it hidx a b ha hb' hfin.1
  have hdesc := C106_descent_direction hL env prm x0 o o' out calls h hp hi he _ it hidx q hq1 hq2 htol a b ha hb'
  obtain ⟨-, hstep⟩ := unconstrained_step hL env prm x0 o o' out calls h hp hi he _ it hidx q hq1 hq2 htol a b ha hb'
  rw [hvars] at hslope hdesc hstep
  refine ⟨it, b, hlast, hb, f1, ?_⟩
  intro dx ε δ
  have hκ : exactCurvature env.p o'.vars (realVal it.lambda) dx ≤ δ := by
    have a1 := (abs_le.mp hdesc).2
    have a2 := (abs_le.mp hslope).2
    have a3 := (abs_le.mp hfin.2).1
    show _ ≤ realVal prm.absoluteFirstDerivativeTol + slopeError env.p o'.vars dx + ε * l2 dx
    have a1' : exactSlope env.p o'.vars dx + exactCurvature env.p o'.vars (realVal it.lambda) dx ≤ ε * l2 dx := a1
    have a2' : realVal it.directionalDerivatives.dF - exactSlope env.p o'.vars dx ≤ slopeError env.p o'.vars dx := a2
    linarith
  refine ⟨hκ, fun d => ?_⟩
  have e := model_along env.p o'.vars (realVal it.lambda) dx d
  have e1 : |∑ i, gaussNewtonGradient env.p o'.vars (realVal it.lambda) dx i * d i| ≤ ε * l2 d :=
    (abs_sum_mul_le_l2 _ _).trans (mul_le_mul_of_nonneg_right hstep (l2_nonneg _))
  have e2 := abs_modelForm_le env.p o'.vars (realVal it.lambda) dx d
  have e3 : Real.sqrt (exactCurvature env.p o'.vars (realVal it.lambda) dx * exactCurvature env.p o'.vars (realVal it.lambda) d)
      ≤ Real.sqrt (exactCurvature env.p o'.vars (realVal it.lambda) d * δ) := by
    refine Real.sqrt_le_sqrt ?_
    rw [_root_.mul_comm]
    exact mul_le_mul_of_nonneg_left hκ (exactCurvature_nonneg _ _ _ _)
  rw [e] at e1
  rw [abs_le] at e1 e2 ⊢
  constructor
  · linarith [e1.1, e2.2]
  · linarith [e1.2, e2.1]

/-- Non-vacuity: the run from 5 towards `√2` in binary64 ends with `SATISFIED_FIRST_ORDER_TOL` and meets the hypotheses of
`C106_first_order_exit`; its last iteration meets those of `C106_slope` and `C106_descent_direction`. -/
theorem C106_demo : ∃ (o' : (DemoF64.env1 DemoF64.sqrt2).Obj) (out : NLSOutputs DemoF64.D64)
    (calls : List (NLSIteration DemoF64.D64)),
    solve (DemoF64.env1 DemoF64.sqrt2) (DemoF64.prm 20) (fun _ => DemoF64.d 5) (DemoF64.obj1 DemoF64.sqrt2)
      = .ok (o', out, calls) ∧
    (∀ r ∈ (DemoF64.env1 DemoF64.sqrt2).p.costs, IdxIn r 1 ∧ IdxIn r 1 ∧ Distinct r ∧ Consistent r) ∧
    (DemoF64.env1 DemoF64.sqrt2).p.ineq = [] ∧ (DemoF64.env1 DemoF64.sqrt2).p.eqs = [] ∧
    out.termination = .satisfiedFirstOrderTol ∧ Dbl.Finite (DemoF64.prm 20).absoluteFirstDerivativeTol ∧
    Dbl.Finite (DemoF64.prm 20).terminationKktTol ∧ out.iterations.length = 5 ∧
    ∀ it, out.iterations.getLast? = some it → Dbl.Finite it.directionalDerivatives.dF ∧
      ∃ q, it.qpOutputs = .interiorPoint q ∧ q.termination = .satisfiedKktTol := by
  have h : (match solve (DemoF64.env1 DemoF64.sqrt2) (DemoF64.prm 20) (fun _ => DemoF64.d 5) (DemoF64.obj1 DemoF64.sqrt2) with
    | .ok (_, out, _) => decide (out.termination = .satisfiedFirstOrderTol ∧ out.iterations.length = 5 ∧
        (match out.iterations.getLast? with
        | some it => decide (Dbl.Finite it.directionalDerivatives.dF) && (match it.qpOutputs with
          | .interiorPoint q => decide (q.termination = .satisfiedKktTol)
          | _ => false)
        | none => false) = true)
    | .error _ => false) = true := by decide +kernel
  split at h
  · rename_i o' out calls hs
    obtain ⟨t1, t2, t3⟩ := of_decide_eq_true h
    refine ⟨o', out, calls, hs, ?_, rfl, rfl, t1, by decide +kernel, by decide +kernel, t2, fun it hit => ?_⟩
    · intro r hr
      have : r = DemoF64.sqrt2 := by simpa [DemoF64.env1] using hr
      subst this
      have hi : IdxIn DemoF64.sqrt2 1 := fun l => ⟨le_rfl, show (0 : Int) < 1 from by decide⟩
      exact ⟨hi, hi, fun x y _ => Subsingleton.elim (α := Fin 1) x y, fun p => rfl⟩
    · rw [hit] at t3
      obtain ⟨u1, u2⟩ := (Bool.and_eq_true ..).mp t3
      refine ⟨of_decide_eq_true u1, ?_⟩
      split at u2
      · rename_i q hq
        exact ⟨q, hq, of_decide_eq_true u2⟩
      · cases u2
  · cases h

end MiniOpt.Props
