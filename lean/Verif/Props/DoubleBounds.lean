import Verif.Props.DoubleSigns
import Verif.Props.DoubleFirstOrder

/-!
# C108: bounds on the variables in doubles

The variables of a nonlinear problem with bounds, moved in binary64: how far the exact value of a bound can fall below zero.
-/

set_option autoImplicit false

namespace MiniOpt.Props

open MiniOpt MiniOpt.Spec MiniOpt.NLS MiniOpt.F64

variable {L : Libm} {n D : Nat}

/-- A sum is not smaller than its computed value allows. -/
theorem le_of_sub_ge {y s : F64} {T : ℝ} (hf : Fin' (add y (neg s))) (hs : 0 ≤ fval s) (h : |fval (add y (neg s))| ≤ T) :
    -(T / (1 - unitRoundoff)) ≤ fval y := by
  obtain ⟨f1, f2⟩ := add_finite hf
  have he := add_err hf
  have hn : fval (neg s) = -fval s := fval_neg _
  rw [hn] at he
  have hu := unit_pos
  have hu1 := unit_lt
  have h1 : |fval y + -fval s| ≤ T + unitRoundoff * |fval y + -fval s| := by
    have := abs_sub_abs_le_abs_sub (fval y + -fval s) (fval (add y (neg s)))
    rw [abs_sub_comm] at this
    linarith
  have h2 : |fval y + -fval s| ≤ T / (1 - unitRoundoff) := by
    rw [le_div_iff₀ (by linarith)]
    linarith
  have := (abs_le.mp h2).1
  linarith

/-- The bounds of a QP that was solved cleanly, in exact terms. -/
theorem qp_bound (hL : AddsUp L) {N M K : Nat} (E : Eigen N K (Dbl L)) (p : QP N M K (Dbl L)) (prm : QPParams (Dbl L))
    (st : IPState N M K (Dbl L)) (r : IPState N M K (Dbl L) × QPOutputs (Dbl L)) (h : IP.solve E p prm st = .ok r)
    (hguess : prm.initialGuessMethod ≠ .userProvided) (hq : SolvedCleanly r.2) (htol : Dbl.Finite prm.terminationKktTol)
    (m : Fin M) :
    Dbl.Finite (p.con m).a ∧ Dbl.Finite (p.con m).b ∧ Dbl.Finite (r.1.v.x (p.con m).var) ∧
    -(inflated M (realVal prm.terminationKktTol) / (1 - unitRoundoff))
        - slop 2 1 (|realVal (p.con m).a * realVal (r.1.v.x (p.con m).var)| + |realVal (p.con m).b|)
      ≤ realVal (p.con m).a * realVal (r.1.v.x (p.con m).var) + realVal (p.con m).b := by
  obtain ⟨hT, hN, hnan⟩ := hq
  have hf := (C102_satisfied_double hL E p prm st r h hT htol hnan).2.1
  have hs := (C107_signs E p prm st r h (fun e => absurd e hguess) hf hN m).1
  obtain ⟨it, hit, -, -, hother, -⟩ := C63_qp_exit E p prm st r h hT
  obtain ⟨s, it', mu, -, hv, hit', hk⟩ := fresh_final h
  rw [hit] at hit'
  obtain rfl := Option.some.inj hit'
  have hi := (hother it.kktFinal.rPrimalIneq (by simp)).resolve_right (hnan it hit).2
  rw [hk] at hi
  rw [← hv] at hs ⊢
  have hM : 0 < M := Nat.lt_of_le_of_lt (Nat.zero_le _) m.isLt
  simp only [IP.computeErrors, if_pos hM] at hi
  obtain ⟨g1, g2⟩ := norm2_lt hL _ _ htol hi
  have hfz : Fin' (F64.add (F64.add (F64.mul (p.con m).a (s.v.x (p.con m).var)) (p.con m).b) (F64.neg (s.v.s m))) := g1 m
  have hb := (abs_le_l2 _ m).trans g2
  rw [realVal_eq] at hb
  have hb' : |fval (F64.add (F64.add (F64.mul (p.con m).a (s.v.x (p.con m).var)) (p.con m).b) (F64.neg (s.v.s m)))|
    ≤ inflated M (realVal prm.terminationKktTol) := hb
  have hs' := zero_le_real hs
  rw [realVal_eq] at hs'
  have h1 := le_of_sub_ge hfz hs' hb'
  obtain ⟨f1, -⟩ := add_finite hfz
  obtain ⟨f3, f4⟩ := add_finite f1
  have h2 := (abs_le.mp (Approx.add (Approx.mul f3) (Approx.exact f4) f1).err).2
  refine ⟨(mul_finite f3).1, f4, (mul_finite f3).2, ?_⟩
  rw [realVal_eq (p.con m).a, realVal_eq (p.con m).b, realVal_eq (s.v.x (p.con m).var)]
  have h3 : slop (max 1 0 + 1) (1 + 0) (|fval (p.con m).a * fval (s.v.x (p.con m).var)| + |fval (p.con m).b|)
      = slop 2 1 (|fval (p.con m).a * fval (s.v.x (p.con m).var)| + |fval (p.con m).b|) := rfl
  linarith

/-- **C108**, one iteration. In binary64, with any residuals, any order of summation and any linear solver: an iteration that
moves the variables, and whose QP the log shows to have been solved cleanly, leaves the exact value of every bound at least at
`(1 - alpha)` times its old value, up to the tolerance of the QP and explicitly bounded rounding errors. -/
theorem C108_bound_step (hL : AddsUp L) (env : Env n D (Dbl L)) (hR : env.retraction = none) (prm : NLSParams (Dbl L))
    (x0 : Fin n → Dbl L) (o o' : env.Obj) (out : NLSOutputs (Dbl L)) (calls : List (NLSIteration (Dbl L)))
    (h : solve env prm x0 o = .ok (o', out, calls)) (htol : Dbl.Finite prm.terminationKktTol)
    (k : Nat) (it : NLSIteration (Dbl L)) (hit : out.iterations[k]? = some it) (hs : it.stepResult = .success)
    (q : QPOutputs (Dbl L)) (hq : it.qpOutputs = .interiorPoint q) (hc : SolvedCleanly q)
    (a b : env.Obj) (ha : After env prm x0 o k a) (hb : After env prm x0 o (k + 1) b) (hf : ∀ j, Dbl.Finite (b.vars j))
    (c : Ineq (Dbl L)) (hmem : c ∈ env.p.ineq) :
    ∃ st, it.lineSearchSteps.getLast? = some st ∧ 0 ≤ realVal st.alpha ∧ realVal st.alpha ≤ 1 ∧
      (1 - realVal st.alpha) * exactBound c a.vars
          - realVal st.alpha * boundStepError env.p.M (realVal prm.terminationKktTol) c a.vars (fun i => realVal (b.dx i))
          - boundMoveError c a.vars (fun i => realVal (b.dx i)) (realVal st.alpha)
        ≤ exactBound c b.vars := by
  obtain ⟨h1, -, h3⟩ := C38_direction env prm x0 o o' out calls h k it hit a b ha hb
  obtain ⟨st, hst, hmove⟩ := (C38_variables_move env prm x0 o o' out calls h k it hit a b ha hb).1 hs
  have hal := (C40_double env prm x0 o o' out calls h it (List.mem_of_getElem? hit)).1 st (List.mem_of_getLast? hst)
  obtain ⟨hafin, ha0, ha1⟩ := hal
  have ha0' := zero_le_real ha0
  have ha1' : realVal st.alpha ≤ 1 := by
    rw [realVal_eq]
    rw [dbl_one] at ha1
    obtain ⟨sg, mg, hg⟩ := F64.isFinite_iff.mp hafin
    rw [hg] at ha1 ⊢
    have h1' : F64.le (.fin sg mg) (.fin false oneMag) = true := ha1
    have h2 : value sg mg ≤ value false oneMag := by simpa [le] using h1'
    have h3 : value sg mg ≤ 1 := h2
    show ((value sg mg : ℚ) : ℝ) ≤ 1
    exact_mod_cast h3
  refine ⟨st, hst, ha0', ha1', ?_⟩
  rcases h3 with ⟨hcon, s, s', q', hsol, hq', hdx⟩ | ⟨s, s', _, hq', _⟩
  swap
  · rw [hq] at hq'; cases hq'
  rw [hq] at hq'
  cases hq'
  obtain ⟨m, hm⟩ := List.mem_iff_get.mp hmem
  obtain ⟨G, f, e, -, -, -, h4⟩ := linearize_parts h1
  obtain ⟨hr, hform⟩ : ∃ hr : 0 ≤ c.var ∧ c.var < (n : Int),
      b.qp.con m = ⟨c.var, c.a, c.a * a.vars ⟨c.var.toNat, by omega⟩ + c.b⟩ := by
    subst hm; exact shiftLoop_form a.vars env.p.ineq _ h4 m
  have hguess : (qpParams env.p prm).initialGuessMethod ≠ .userProvided := by
    unfold qpParams
    split_ifs <;> simp
  obtain ⟨fa, fb, fx, hbound⟩ := qp_bound hL env.E (b.qp.typed hcon) (qpParams env.p prm) _ _ hsol hguess hc htol m
  unfold Moves at hmove
  rw [hR] at hmove
  obtain ⟨hnD, hy⟩ := hmove
  subst hnD
  set j : Fin n := ⟨c.var.toNat, by omega⟩ with hj
  -- the bound in the QP
  have hcm : b.qp.con m = ⟨c.var, c.a, c.a * a.vars j + c.b⟩ := hform
  have ca : ((b.qp.typed hcon).con m).a = c.a := by show (b.qp.con m).a = c.a; rw [hcm]
  have cb : ((b.qp.typed hcon).con m).b = c.a * a.vars j + c.b := by show (b.qp.con m).b = _; rw [hcm]
  have cv : ((b.qp.typed hcon).con m).var = j := by
    apply Fin.ext
    show (b.qp.con m).var.toNat = c.var.toNat
    rw [hcm]
  rw [ca, cb, cv] at hbound
  rw [cb] at fb
  rw [ca] at fa
  have hvx : (s'.v.x j : Dbl L) = b.dx j := by rw [hdx]
  change -(inflated env.p.M (realVal prm.terminationKktTol) / (1 - unitRoundoff))
        - slop 2 1 (|realVal c.a * realVal (s'.v.x j)| + |realVal (c.a * a.vars j + c.b)|)
      ≤ realVal c.a * realVal (s'.v.x j) + realVal (c.a * a.vars j + c.b) at hbound
  rw [hvx] at hbound
  have fb' : Fin' (F64.add (F64.mul c.a (a.vars j)) c.b) := fb
  obtain ⟨f1, f2⟩ := add_finite fb'
  have herr := (Approx.add (Approx.mul f1) (Approx.exact f2) fb').err
  rw [← realVal_eq c.a, ← realVal_eq c.b, ← realVal_eq (a.vars j)] at herr
  have herr' : |realVal (c.a * a.vars j + c.b) - (realVal c.a * realVal (a.vars j) + realVal c.b)|
      ≤ slop 2 1 (|realVal c.a * realVal (a.vars j)| + |realVal c.b|) := by
    rw [realVal_eq (c.a * a.vars j + c.b)]; exact herr
  -- the new value of the variable
  have hyj : b.vars j = a.vars j + b.dx j * st.alpha := by rw [hy]; rfl
  have fv := hf j
  rw [hyj] at fv
  have fv' : Fin' (F64.add (a.vars j) (F64.mul (b.dx j) st.alpha)) := fv
  obtain ⟨v1, v2⟩ := add_finite fv'
  have hverr := (Approx.add (Approx.exact v1) (Approx.mul v2) fv').err
  have hverr' : |realVal (b.vars j) - (realVal (a.vars j) + realVal (b.dx j) * realVal st.alpha)|
      ≤ slop 2 1 (|realVal (a.vars j)| + |realVal (b.dx j) * realVal st.alpha|) := by
    rw [hyj, realVal_eq (a.vars j + b.dx j * st.alpha), realVal_eq (a.vars j), realVal_eq (b.dx j), realVal_eq st.alpha]
    exact hverr
  have hcoord : ∀ v : Fin n → ℝ, coord v c.var = v j := fun v => by unfold coord; rw [dif_pos hr]
  have hmag : boundMagnitude c a.vars = |realVal c.a * realVal (a.vars j)| + |realVal c.b| := by
    unfold boundMagnitude; rw [dif_pos hr]
  have hb1 : exactBound c a.vars = realVal c.a * realVal (a.vars j) + realVal c.b := by
    unfold exactBound; rw [dif_pos hr]
  have hb2 : exactBound c b.vars = realVal c.a * realVal (b.vars j) + realVal c.b := by
    unfold exactBound; rw [dif_pos hr]
  unfold boundStepError boundMoveError
  rw [hcoord, hcoord, hmag, hb1, hb2]
  generalize realVal (c.a * a.vars j + c.b) = B at hbound herr'
  generalize realVal (b.vars j) = y at hverr'
  generalize realVal (a.vars j) = x at herr' hverr' ⊢
  generalize realVal (b.dx j) = dx at hbound hverr' ⊢
  generalize realVal c.a = A at hbound herr' ⊢
  generalize realVal c.b = β at herr' ⊢
  generalize realVal st.alpha = α at ha0' ha1' hverr' ⊢
  generalize inflated env.p.M (realVal prm.terminationKktTol) / (1 - unitRoundoff) = T at hbound ⊢
  have hB : |B| ≤ (|A * x| + |β|) + slop 2 1 (|A * x| + |β|) := by
    have h1 : |A * x + β| ≤ |A * x| + |β| := abs_add_le _ _
    have h2 : |B| ≤ |B - (A * x + β)| + |A * x + β| := by
      have := abs_add_le (B - (A * x + β)) (A * x + β)
      rwa [sub_add_cancel] at this
    linarith
  have hmono : slop 2 1 (|A * dx| + |B|) ≤ slop 2 1 (|A * dx| + ((|A * x| + |β|) + slop 2 1 (|A * x| + |β|))) :=
    slop_mono le_rfl le_rfl (add_nonneg (abs_nonneg _) (abs_nonneg _)) (by linarith)
  have hfull : -(T + slop 2 1 (|A * dx| + ((|A * x| + |β|) + slop 2 1 (|A * x| + |β|))) + slop 2 1 (|A * x| + |β|))
      ≤ A * dx + (A * x + β) := by
    have := (abs_le.mp herr').2
    linarith
  have hfull' := mul_le_mul_of_nonneg_left hfull ha0'
  have hAe : |A * (y - (x + dx * α))| ≤ |A| * slop 2 1 (|x| + |dx * α|) := by
    rw [abs_mul]; exact mul_le_mul_of_nonneg_left hverr' (abs_nonneg _)
  have := (abs_le.mp hAe).1
  nlinarith

/-- Without a custom retraction, finite variables were finite before. -/
theorem vars_finite (env : Env n D (Dbl L)) (hR : env.retraction = none) (prm : NLSParams (Dbl L))
    (x0 : Fin n → Dbl L) (o o' : env.Obj) (out : NLSOutputs (Dbl L)) (calls : List (NLSIteration (Dbl L)))
    (h : solve env prm x0 o = .ok (o', out, calls)) (hf : ∀ j, Dbl.Finite (o'.vars j)) :
    ∀ k, k ≤ out.iterations.length → ∀ b, After env prm x0 o k b → ∀ j, Dbl.Finite (b.vars j) := by
  obtain ⟨hex, -, hend⟩ := C38_after env prm x0 o o' out calls h
  have key : ∀ i, i ≤ out.iterations.length → ∀ b, After env prm x0 o (out.iterations.length - i) b →
      ∀ j, Dbl.Finite (b.vars j) := by
    intro i
    induction i with
    | zero => intro _ b hb j; rw [hend b hb]; exact hf j
    | succ i ih =>
      intro hi a ha j
      obtain ⟨b, hb, -⟩ := hex (out.iterations.length - i) (by omega)
      have hb' : After env prm x0 o (out.iterations.length - (i + 1) + 1) b := by
        rwa [show out.iterations.length - (i + 1) + 1 = out.iterations.length - i by omega]
      have hlt : out.iterations.length - (i + 1) < out.iterations.length := by omega
      obtain ⟨m1, m2⟩ := C38_variables_move env prm x0 o o' out calls h _ _ (List.getElem?_eq_getElem hlt) a b ha hb'
      have hfb := ih (by omega) b hb j
      by_cases hs : (out.iterations[out.iterations.length - (i + 1)]).stepResult = .success
      · obtain ⟨st, -, hmove⟩ := m1 hs
        unfold Moves at hmove
        rw [hR] at hmove
        obtain ⟨hnD, hy⟩ := hmove
        rw [hy] at hfb
        exact (add_finite (show Fin' (F64.add (a.vars j) _) from hfb)).1
      · rw [← m2 hs]; exact hfb
  intro k hk b hb
  exact key (out.iterations.length - k) (by omega) b (by rwa [show out.iterations.length - (out.iterations.length - k) = k by omega])

/-- **C108**, whole runs. If the returned variables are finite, every QP on the way was solved cleanly according to the log, and
the errors of each step are at most `e₁` (full step) and `e₂` (moving the variables), then a bound that holds initially up to
`e₁` holds at the end up to `e₁ + k e₂`, `k` being the number of iterations. -/
theorem C108_bounds_kept (hL : AddsUp L) (env : Env n D (Dbl L)) (hR : env.retraction = none) (prm : NLSParams (Dbl L))
    (x0 : Fin n → Dbl L) (o o' : env.Obj) (out : NLSOutputs (Dbl L)) (calls : List (NLSIteration (Dbl L)))
    (h : solve env prm x0 o = .ok (o', out, calls)) (htol : Dbl.Finite prm.terminationKktTol)
    (hf : ∀ j, Dbl.Finite (o'.vars j))
    (hq : ∀ it ∈ out.iterations, it.stepResult = .success → ∃ q, it.qpOutputs = .interiorPoint q ∧ SolvedCleanly q)
    (c : Ineq (Dbl L)) (hmem : c ∈ env.p.ineq) (e₁ e₂ : ℝ) (he₂ : 0 ≤ e₂)
    (herr : ∀ k it a b st, out.iterations[k]? = some it → it.stepResult = .success → After env prm x0 o k a →
      After env prm x0 o (k + 1) b → it.lineSearchSteps.getLast? = some st →
      boundStepError env.p.M (realVal prm.terminationKktTol) c a.vars (fun i => realVal (b.dx i)) ≤ e₁ ∧
      boundMoveError c a.vars (fun i => realVal (b.dx i)) (realVal st.alpha) ≤ e₂)
    (h0 : -e₁ ≤ exactBound c x0) :
    -(e₁ + out.iterations.length * e₂) ≤ exactBound c o'.vars := by
  obtain ⟨hex, hstart, hend⟩ := C38_after env prm x0 o o' out calls h
  have hfin := vars_finite env hR prm x0 o o' out calls h hf
  have key : ∀ k, k ≤ out.iterations.length → ∀ b, After env prm x0 o k b → -(e₁ + k * e₂) ≤ exactBound c b.vars := by
    intro k
    induction k with
    | zero => intro _ b hb; rw [hstart b hb]; simpa using h0
    | succ k ih =>
      intro hk b hb
      obtain ⟨a, ha, -⟩ := hex k (by omega)
      have hA := ih (by omega) a ha
      have hit : out.iterations[k]? = some out.iterations[k] := List.getElem?_eq_getElem hk
      have hke : (0 : ℝ) ≤ k * e₂ := mul_nonneg (Nat.cast_nonneg k) he₂
      push_cast
      by_cases hs : (out.iterations[k]).stepResult = .success
      · obtain ⟨q, hq1, hq2⟩ := hq _ (List.getElem_mem hk) hs
        obtain ⟨st, hst, a0, a1, hb'⟩ := C108_bound_step hL env hR prm x0 o o' out calls h htol k _ hit hs q hq1 hq2 a b ha hb
          (hfin (k + 1) hk b hb) c hmem
        obtain ⟨r1, r2⟩ := herr k _ a b st hit hs ha hb hst
        have t1 := mul_le_mul_of_nonneg_left hA (sub_nonneg.mpr a1)
        have t2 := mul_le_mul_of_nonneg_left r1 a0
        have t3 := mul_nonneg a0 hke
        linarith
      · rw [(C38_variables_move env prm x0 o o' out calls h k _ hit a b ha hb).2 hs]
        linarith
  obtain ⟨b, hb, -⟩ := hex _ le_rfl
  have := key _ le_rfl b hb
  rwa [hend b hb] at this

/-- **C108**, size of the errors: with the tolerance `t`, at most `2^50` bounds, and numbers no larger than `S` (and not all of
them near the bottom of the range), a full step may violate a bound by `(1 + (M + 4) u) t + 14 u S`, and moving the variables
costs at most `6 u S` more (`u = 2^-53`). -/
theorem C108_error_size (m : Nat) (hm : m ≤ 2 ^ 50) (t S : ℝ) (c : Ineq (Dbl L)) (x : Fin n → Dbl L) (dx : Fin D → ℝ) (alpha : ℝ)
    (ht : 0 ≤ t) (hmt : m * underflow ≤ unitRoundoff * t ^ 2) (hS : underflow ≤ unitRoundoff * S)
    (hb : |realVal c.a * coord dx c.var| + boundMagnitude c x ≤ S)
    (hx : |realVal c.a| * (|coord (fun i => realVal (x i)) c.var| + |coord dx c.var * alpha|) ≤ S)
    (ha : |realVal c.a| * underflow ≤ unitRoundoff * S) :
    boundStepError m t c x dx ≤ (1 + (m + 4) * unitRoundoff) * t + 14 * unitRoundoff * S ∧
    boundMoveError c x dx alpha ≤ 6 * unitRoundoff * S := by
  have hu := unit_pos
  have hu4 : unitRoundoff ≤ 1 / 2 ^ 53 := by unfold unitRoundoff; norm_num
  have hη := under_pos
  have hbm : 0 ≤ boundMagnitude c x := by
    unfold boundMagnitude; split_ifs
    · positivity
    · exact le_rfl
  have hab := abs_nonneg (realVal c.a * coord dx c.var)
  have hsl : ∀ z, 0 ≤ z → slop 2 1 z ≤ 4 * unitRoundoff * z + 2 * underflow := fun z hz => by
    have := (C102_slop_small 2 1 z 0 (by norm_num) hz le_rfl).1
    push_cast at this
    linarith
  have hSn : 0 ≤ S := by linarith
  constructor
  · have h1 := (C102_slop_small m 0 0 t (by omega) le_rfl ht).2 hmt
    have h2 : inflated m t / (1 - unitRoundoff) ≤ (1 + (m + 4) * unitRoundoff) * t := by
      rw [div_le_iff₀ (by linarith [unit_lt])]
      refine h1.trans ?_
      have hmu : (m : ℝ) * unitRoundoff ≤ 1 / 4 := by
        have : (m : ℝ) ≤ 2 ^ 50 := by exact_mod_cast hm
        have := mul_le_mul this hu4 hu.le (by norm_num)
        norm_num at this ⊢
        linarith
      have : (1 + (m + 1) * unitRoundoff) ≤ (1 + (m + 4) * unitRoundoff) * (1 - unitRoundoff) := by nlinarith
      calc (1 + (m + 1) * unitRoundoff) * t ≤ ((1 + (m + 4) * unitRoundoff) * (1 - unitRoundoff)) * t :=
            mul_le_mul_of_nonneg_right this ht
        _ = _ := by ring
    unfold boundStepError
    have h3 := hsl _ hbm
    have hsn : 0 ≤ slop 2 1 (boundMagnitude c x) := slop_nonneg hbm
    have h4 := hsl (|realVal c.a * coord dx c.var| + (boundMagnitude c x + slop 2 1 (boundMagnitude c x))) (by positivity)
    have h5 : boundMagnitude c x ≤ S := by linarith
    have h6 : 4 * unitRoundoff * boundMagnitude c x ≤ 4 * unitRoundoff * S := mul_le_mul_of_nonneg_left h5 (by positivity)
    have h7 : slop 2 1 (boundMagnitude c x) ≤ 6 * unitRoundoff * S := by linarith
    have h8 : |realVal c.a * coord dx c.var| + (boundMagnitude c x + slop 2 1 (boundMagnitude c x)) ≤ S + 6 * unitRoundoff * S := by
      linarith
    have h9 := mul_le_mul_of_nonneg_left h8 (by positivity : 0 ≤ 4 * unitRoundoff)
    have h10 : 4 * unitRoundoff * (S + 6 * unitRoundoff * S) ≤ 6 * unitRoundoff * S := by
      have : unitRoundoff * (unitRoundoff * S) ≤ 1 / 24 * (unitRoundoff * S) :=
        mul_le_mul_of_nonneg_right (by linarith) (by positivity)
      linarith
    linarith
  · unfold boundMoveError
    have h1 := hsl (|coord (fun i => realVal (x i)) c.var| + |coord dx c.var * alpha|) (by positivity)
    have h2 := mul_le_mul_of_nonneg_left h1 (abs_nonneg (realVal c.a))
    have h3 := mul_le_mul_of_nonneg_left hx (by positivity : 0 ≤ 4 * unitRoundoff)
    linarith

/-- The numbers `e₁` and `e₂` of `C108_bounds_kept` exist for every run. -/
theorem bounds_kept_errors (env : Env n D (Dbl L)) (prm : NLSParams (Dbl L))
    (x0 : Fin n → Dbl L) (o o' : env.Obj) (out : NLSOutputs (Dbl L)) (calls : List (NLSIteration (Dbl L)))
    (h : solve env prm x0 o = .ok (o', out, calls)) (c : Ineq (Dbl L)) :
    ∃ e : ℝ, 0 ≤ e ∧ -e ≤ exactBound c x0 ∧
    ∀ k it a b st, out.iterations[k]? = some it → it.stepResult = .success → After env prm x0 o k a →
      After env prm x0 o (k + 1) b → it.lineSearchSteps.getLast? = some st →
      boundStepError env.p.M (realVal prm.terminationKktTol) c a.vars (fun i => realVal (b.dx i)) ≤ e ∧
      boundMoveError c a.vars (fun i => realVal (b.dx i)) (realVal st.alpha) ≤ e := by
  obtain ⟨hex, -, -⟩ := C38_after env prm x0 o o' out calls h
  have key : ∀ k, ∃ B : ℝ, ∀ it a b st, out.iterations[k]? = some it → After env prm x0 o k a →
      After env prm x0 o (k + 1) b → it.lineSearchSteps.getLast? = some st →
      boundStepError env.p.M (realVal prm.terminationKktTol) c a.vars (fun i => realVal (b.dx i)) ≤ B ∧
      boundMoveError c a.vars (fun i => realVal (b.dx i)) (realVal st.alpha) ≤ B := by
    intro k
    by_cases hk : k < out.iterations.length
    · obtain ⟨a, ha, ua⟩ := hex k (by omega)
      obtain ⟨b, hb, ub⟩ := hex (k + 1) hk
      cases hst : (out.iterations[k]).lineSearchSteps.getLast? with
      | none =>
        refine ⟨0, fun it a' b' st hit _ _ hst' => ?_⟩
        rw [List.getElem?_eq_getElem hk] at hit
        rw [← Option.some.inj hit, hst] at hst'
        cases hst'
      | some st0 =>
        refine ⟨max (boundStepError env.p.M (realVal prm.terminationKktTol) c a.vars (fun i => realVal (b.dx i)))
          (boundMoveError c a.vars (fun i => realVal (b.dx i)) (realVal st0.alpha)), fun it a' b' st hit ha' hb' hst' => ?_⟩
        rw [List.getElem?_eq_getElem hk] at hit
        rw [← Option.some.inj hit, hst] at hst'
        rw [ua a' ha', ub b' hb', ← Option.some.inj hst']
        exact ⟨le_max_left _ _, le_max_right _ _⟩
    · refine ⟨0, fun it a b st hit => ?_⟩
      rw [List.getElem?_eq_none (by omega)] at hit
      cases hit
  choose B hB using key
  have hsum : ∀ k, k < out.iterations.length → B k ≤ ∑ k ∈ Finset.range out.iterations.length, |B k| := fun k hk =>
    (le_abs_self _).trans (Finset.single_le_sum (f := fun k => |B k|) (fun i _ => abs_nonneg (B i)) (Finset.mem_range.mpr hk))
  have hn : 0 ≤ ∑ k ∈ Finset.range out.iterations.length, |B k| := Finset.sum_nonneg fun (i : ℕ) _ => abs_nonneg (B i)
  refine ⟨(∑ k ∈ Finset.range out.iterations.length, |B k|) + |exactBound c x0|, by positivity, ?_, ?_⟩
  · have := neg_abs_le (exactBound c x0)
    linarith
  · intro k it a b st hit _ ha hb hst
    have h1 := hB k it a b st hit ha hb hst
    have h2 := hsum k (lt_of_getElem? hit)
    have h3 := abs_nonneg (exactBound c x0)
    exact ⟨by linarith [h1.1], by linarith [h1.2]⟩

/-- One variable, one cost, one bound. -/
def boundedEnv1 (r : Residual DemoF64.D64) (c : Ineq DemoF64.D64) : Env 1 1 DemoF64.D64 where
  p := { costs := [r], eqs := [], ineq := [c] }
  retraction := none
  callback := none
  E := DemoF64.inv1
  NE := ⟨fun _ => ⟨fun _ _ => 0, fun _ _ => 0, id, 0⟩, fun _ v => v, fun _ => none⟩
  eigenvalues := fun G i => G i i
  freshIP := DemoF64.zero1 1
  freshNS := ⟨fun _ => 0⟩

def boundedObj1 (r : Residual DemoF64.D64) (c : Ineq DemoF64.D64) : (boundedEnv1 r c).Obj :=
  ⟨⟨fun _ _ => 0, fun _ => 0, fun _ _ => 0, fun _ => 0, fun _ => c⟩, .ip (DemoF64.zero1 1), fun _ => 0, fun _ => 0, fun _ => 0,
    [], .nominal⟩

def isNum (x : DemoF64.D64) : Bool := match (x : F64) with
  | .nan => false
  | _ => true

theorem isNum_ok {x : DemoF64.D64} (h : isNum x = true) : x ≠ F64.nan := by rintro rfl; cases h

/-- The log of a QP satisfies `SolvedCleanly` (a test the kernel can evaluate). -/
def cleanly (q : QPOutputs DemoF64.D64) : Bool :=
  decide (q.termination = .satisfiedKktTol) &&
  (q.iterations.all fun it => decide (pow2 (-1022) ≤ it.ip.alpha.primal.toRat) && decide (pow2 (-1022) ≤ it.ip.alpha.dual.toRat)) &&
  (q.iterations.all fun it => isNum it.kktFinal.rPrimalEq && isNum it.kktFinal.rPrimalIneq)

theorem cleanly_ok {q : QPOutputs DemoF64.D64} (h : cleanly q = true) : SolvedCleanly q := by
  unfold cleanly at h
  simp only [Bool.and_eq_true, decide_eq_true_eq, List.all_eq_true] at h
  obtain ⟨⟨h1, h2⟩, h3⟩ := h
  have key : ∀ x : DemoF64.D64, pow2 (-1022) ≤ x.toRat → smallestNormal ≤ realVal x := fun x hx => by
    have h2 : ((pow2 (-1022) : ℚ) : ℝ) ≤ ((x.toRat : ℚ) : ℝ) := by exact_mod_cast hx
    rw [pow2_eq] at h2; push_cast at h2; exact h2
  exact ⟨h1, fun it hit => ⟨key _ (h2 it hit).1, key _ (h2 it hit).2⟩, fun it hit =>
    ⟨isNum_ok (h3 it (List.mem_of_getLast? hit)).1, isNum_ok (h3 it (List.mem_of_getLast? hit)).2⟩⟩

/-- Non-vacuity: `½x²` subject to `x ≥ 2` from `x = 3`, in binary64: the bound becomes active, the variables move, and every
hypothesis of `C108_bounds_kept` holds. -/
theorem C108_demo : AddsUp DemoF64.seqL ∧
    ∃ (env : Env 1 1 DemoF64.D64) (o o' : env.Obj) (out : NLSOutputs DemoF64.D64) (calls : List (NLSIteration DemoF64.D64)),
      solve env (DemoF64.prm 3) (fun _ => DemoF64.d 3) o = .ok (o', out, calls) ∧ env.retraction = none ∧
      Dbl.Finite (DemoF64.prm 3).terminationKktTol ∧ (∀ j, Dbl.Finite (o'.vars j)) ∧
      (⟨0, 1, -DemoF64.d 2⟩ : Ineq DemoF64.D64) ∈ env.p.ineq ∧
      (∀ it ∈ out.iterations, it.stepResult = .success → ∃ q, it.qpOutputs = .interiorPoint q ∧ SolvedCleanly q) ∧
      1 ≤ (out.iterations.filter fun it => decide (it.stepResult = .success)).length := by
  refine ⟨seqL_addsUp, ?_⟩
  have h : (match solve (boundedEnv1 (DemoF64.res1 (fun x => x) fun _ => 1) ⟨0, 1, -DemoF64.d 2⟩) (DemoF64.prm 3)
      (fun _ => DemoF64.d 3) (boundedObj1 (DemoF64.res1 (fun x => x) fun _ => 1) ⟨0, 1, -DemoF64.d 2⟩) with
    | .ok (o', out, _) => decide ((∀ j, Dbl.Finite (o'.vars j)) ∧
        (out.iterations.all fun (it : NLSIteration DemoF64.D64) =>
          match it.qpOutputs with
          | .interiorPoint q => cleanly q
          | .nullSpace _ => false) = true ∧
        1 ≤ (out.iterations.filter fun (it : NLSIteration DemoF64.D64) => decide (it.stepResult = .success)).length)
    | .error _ => false) = true := by decide +kernel
  split at h
  · rename_i o' out calls hs
    obtain ⟨h1, h2, h3⟩ := of_decide_eq_true h
    refine ⟨_, _, o', out, calls, hs, rfl, by decide +kernel, h1, by simp [boundedEnv1], ?_, h3⟩
    intro it hit _
    have := List.all_eq_true.mp h2 it hit
    cases hq : it.qpOutputs with
    | interiorPoint q =>
      rw [hq] at this
      exact ⟨q, rfl, cleanly_ok this⟩
    | nullSpace t => rw [hq] at this; cases this
  · cases h

end MiniOpt.Props
