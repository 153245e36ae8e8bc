import Verif.Spec.RoundOffNLSSpec
import Verif.Props.DoubleKKT
import Verif.Props.DoublesMore

/-!
# C103: the logged cost and constraint violation in binary64
-/

set_option autoImplicit false

namespace MiniOpt.F64

open MiniOpt.Spec

/-- Multiplying by a number of magnitude at most one. -/
theorem Approx.scale {c x : F64} {v a : ℝ} {n m : Nat} (hx : Approx x v a n m) (h : Fin' (F64.mul c x)) (hc : |fval c| ≤ 1 ∨ m = 0) :
    Approx (F64.mul c x) (fval c * v) (|fval c| * a) (n + 1) (m + 1) := by
  have e0 := mul_err h
  have hu := unit_pos
  have hη := under_pos
  have hc0 := abs_nonneg (fval c)
  have e1 : |fval x| ≤ a + slop n m a := by
    calc |fval x| = |v + (fval x - v)| := by ring_nf
      _ ≤ |v| + |fval x - v| := abs_add_le _ _
      _ ≤ _ := add_le_add hx.bound hx.err
  have e2 : |fval (F64.mul c x) - fval c * v| ≤ unitRoundoff * |fval c * fval x| + underflow + |fval c| * slop n m a := by
    calc |fval (F64.mul c x) - fval c * v| = |(fval (F64.mul c x) - fval c * fval x) + fval c * (fval x - v)| := by ring_nf
      _ ≤ |fval (F64.mul c x) - fval c * fval x| + |fval c * (fval x - v)| := abs_add_le _ _
      _ ≤ _ := by
        refine add_le_add e0 ?_
        rw [abs_mul]
        exact mul_le_mul_of_nonneg_left hx.err hc0
  have e3 : |fval c * fval x| ≤ |fval c| * (a + slop n m a) := by
    rw [abs_mul]; exact mul_le_mul_of_nonneg_left e1 hc0
  have e4 := mul_le_mul_of_nonneg_left e3 hu.le
  refine ⟨h, ?_, by rw [abs_mul]; exact mul_le_mul_of_nonneg_left hx.bound hc0⟩
  refine e2.trans ?_
  have hg := grow_pos n
  have key : |fval c| * ((m : ℝ) * (1 + unitRoundoff) ^ n * underflow) ≤ (m : ℝ) * (1 + unitRoundoff) ^ n * underflow := by
    have hnn : 0 ≤ (m : ℝ) * (1 + unitRoundoff) ^ n * underflow :=
      mul_nonneg (mul_nonneg (Nat.cast_nonneg m) (by linarith)) hη.le
    rcases hc with hc | hc
    · exact mul_le_of_le_one_left hnn hc
    · subst hc; simp
  have h5 : underflow ≤ (1 + unitRoundoff) ^ (n + 1) * underflow := le_mul_of_one_le_left hη.le (grow_pos (n + 1))
  have e5 : unitRoundoff * (|fval c| * (a + slop n m a)) + |fval c| * slop n m a
      = ((1 + unitRoundoff) ^ (n + 1) - 1) * (|fval c| * a)
        + (1 + unitRoundoff) * (|fval c| * ((m : ℝ) * (1 + unitRoundoff) ^ n * underflow)) := by
    unfold slop; rw [pow_succ]; ring
  have e6 : (1 + unitRoundoff) * (|fval c| * ((m : ℝ) * (1 + unitRoundoff) ^ n * underflow))
      ≤ (m : ℝ) * (1 + unitRoundoff) ^ (n + 1) * underflow := by
    calc _ ≤ (1 + unitRoundoff) * ((m : ℝ) * (1 + unitRoundoff) ^ n * underflow) :=
          mul_le_mul_of_nonneg_left key (by linarith)
      _ = _ := by rw [pow_succ]; ring
  have e7 : slop (n + 1) (m + 1) (|fval c| * a) = ((1 + unitRoundoff) ^ (n + 1) - 1) * (|fval c| * a)
      + (m : ℝ) * (1 + unitRoundoff) ^ (n + 1) * underflow + (1 + unitRoundoff) ^ (n + 1) * underflow := by
    unfold slop; push_cast; ring
  rw [e7]
  linarith

theorem abs_finite {x : F64} : Fin' (F64.abs x) ↔ Fin' x := by cases x <;> simp [F64.abs, Fin', isFinite]

theorem Approx.abs_exact {x : F64} (h : Fin' (F64.abs x)) : Approx (F64.abs x) |fval x| |fval x| 0 0 := by
  have := Approx.exact h
  rw [fval_abs, abs_abs] at this
  exact this

theorem half_val : fval (F64.round false (1 / 2)) = 1 / 2 := by
  have h : (match F64.round false (1 / 2) with | .fin s m => decide (value s m = 1 / 2) | _ => false) = true := by
    decide +kernel
  cases hx : F64.round false (1 / 2) with
  | nan => rw [hx] at h; cases h
  | inf s => rw [hx] at h; cases h
  | fin s m =>
    rw [hx] at h
    have := of_decide_eq_true h
    show ((value s m : ℚ) : ℝ) = 1 / 2
    rw [this]; norm_num

end MiniOpt.F64

namespace MiniOpt.Props

open MiniOpt MiniOpt.Spec MiniOpt.NLS MiniOpt.F64

variable {L : Libm} {n D : Nat}

theorem near_norm1 (hL : AddsUp L) {k : Nat} (a : Fin k → Dbl L) (h : IsFin (lpNorm1 a)) :
    Near (lpNorm1 a) (∑ i, |realVal (a i)|) (∑ i, |realVal (a i)|) k 0 ∧ ∀ i, IsFin (a i) := by
  have hs := hL (List.ofFn fun i => (F64.abs (a i) : F64))
  have hfin := added_finite hs h
  have hi : ∀ i, Fin' (F64.abs (a i)) := fun i => hfin _ (List.mem_ofFn.mpr ⟨i, rfl⟩)
  refine ⟨?_, fun i => abs_finite.mp (hi i)⟩
  have := added_approx hs h (n := 0) (List.ofFn fun i => (|fval (a i)|, |fval (a i)|, 0)) (by
      rw [List.forall₂_iff_get]
      refine ⟨by simp, fun j h1 h2 => ?_⟩
      simp only [List.get_ofFn]
      exact Approx.abs_exact (hi _))
  simp only [List.map_ofFn, List.length_ofFn, List.sum_ofFn, Function.comp_def, Finset.sum_const, smul_zero] at this
  simp only [realVal_eq]
  exact this.weaken (by omega) (by omega)

theorem near_costs (hL : AddsUp L) (x : Fin n → Dbl L) : ∀ (rs : List (Residual (Dbl L))) (f : Dbl L),
    IsFin (rs.foldl (fun f r => f + Residual.half * squaredNorm (valueAt r x)) f) →
    IsFin f ∧ (∀ r ∈ rs, ∀ i, IsFin (valueAt r x i)) ∧
    ∀ (v a : ℝ) (k m : Nat), Near f v a k m →
      Near (rs.foldl (fun f r => f + Residual.half * squaredNorm (valueAt r x)) f)
        (v + (rs.map fun r => 1 / 2 * ∑ i, realVal (valueAt r x i) ^ 2).sum)
        (a + (rs.map fun r => 1 / 2 * ∑ i, realVal (valueAt r x i) ^ 2).sum)
        (k + (rs.map fun r => r.dim + 2).sum) (m + (rs.map fun r => r.dim + 2).sum) := by
  intro rs
  induction rs with
  | nil => intro f h; exact ⟨h, by simp, fun v a k m hn => by simpa using hn⟩
  | cons r rs ih =>
    intro f h
    rw [List.foldl_cons] at h
    obtain ⟨h1, h2, h3⟩ := ih _ h
    have hadd : Fin' (F64.add f (F64.mul (Residual.half : Dbl L) (squaredNorm (valueAt r x) : Dbl L))) := h1
    obtain ⟨f1, f2⟩ := add_finite hadd
    obtain ⟨f3, f4⟩ := mul_finite f2
    obtain ⟨d1, d2⟩ := near_dot hL _ _ f4
    have hhalf : fval (Residual.half : Dbl L) = 1 / 2 := half_val
    have hs := Approx.scale d1 f2 (Or.inl (hhalf ▸ (by norm_num : |(1 / 2 : ℝ)| ≤ 1)))
    refine ⟨f1, ?_, fun v a k m hn => ?_⟩
    · intro r' hr'
      rcases List.mem_cons.mp hr' with rfl | hr'
      · exact fun i => (d2 i).1
      · exact h2 r' hr'
    · have := h3 _ _ _ _ (Approx.add hn hs hadd)
      rw [hhalf] at this
      have e1 : ∑ i, realVal (valueAt r x i) * realVal (valueAt r x i) = ∑ i, realVal (valueAt r x i) ^ 2 :=
        Finset.sum_congr rfl fun i _ => by ring
      have e2 : ∑ i, |realVal (valueAt r x i) * realVal (valueAt r x i)| = ∑ i, realVal (valueAt r x i) ^ 2 :=
        Finset.sum_congr rfl fun i _ => by rw [abs_mul_self]; ring
      rw [e1, e2, abs_of_pos (by norm_num : (0 : ℝ) < 1 / 2)] at this
      simp only [List.map_cons, List.sum_cons, List.foldl_cons, ← add_assoc]
      have w := this.weaken (n' := k + r.dim + 2 + (rs.map fun r => r.dim + 2).sum)
        (m' := m + r.dim + 2 + (rs.map fun r => r.dim + 2).sum) (by omega) (by omega)
      exact w

theorem near_eqs (hL : AddsUp L) (x : Fin n → Dbl L) : ∀ (rs : List (Residual (Dbl L))) (f : Dbl L),
    IsFin (rs.foldl (fun f r => f + lpNorm1 (valueAt r x)) f) →
    IsFin f ∧ (∀ r ∈ rs, ∀ i, IsFin (valueAt r x i)) ∧
    ∀ (v a : ℝ) (k m : Nat), Near f v a k m →
      Near (rs.foldl (fun f r => f + lpNorm1 (valueAt r x)) f)
        (v + (rs.map fun r => ∑ i, |realVal (valueAt r x i)|).sum)
        (a + (rs.map fun r => ∑ i, |realVal (valueAt r x i)|).sum)
        (k + (rs.map fun r => r.dim + 1).sum) m := by
  intro rs
  induction rs with
  | nil => intro f h; exact ⟨h, by simp, fun v a k m hn => by simpa using hn⟩
  | cons r rs ih =>
    intro f h
    rw [List.foldl_cons] at h
    obtain ⟨h1, h2, h3⟩ := ih _ h
    have hadd : Fin' (F64.add f (lpNorm1 (valueAt r x) : Dbl L)) := h1
    obtain ⟨f1, f2⟩ := add_finite hadd
    obtain ⟨d1, d2⟩ := near_norm1 hL _ f2
    refine ⟨f1, ?_, fun v a k m hn => ?_⟩
    · intro r' hr'
      rcases List.mem_cons.mp hr' with rfl | hr'
      · exact d2
      · exact h2 r' hr'
    · have := h3 _ _ _ _ (Approx.add hn d1 hadd)
      simp only [List.map_cons, List.sum_cons, List.foldl_cons, ← add_assoc]
      have w := this.weaken (n' := k + r.dim + 1 + (rs.map fun r => r.dim + 1).sum)
        (m' := m) (by omega) (by omega)
      exact w

theorem near_zero : Near (0 : Dbl L) 0 0 0 0 := by
  have h : Fin' (F64.zero false) := rfl
  have := Approx.exact h
  rw [fval_zero, abs_zero] at this
  exact this

theorem near_cost (hL : AddsUp L) (p : Problem D (Dbl L)) (x : Fin n → Dbl L) (h : IsFin (costAt p x)) :
    Near (costAt p x) (exactCost p x) (exactCost p x) (costOps p) (costOps p) ∧
    ∀ r ∈ p.costs, ∀ i, IsFin (valueAt r x i) := by
  obtain ⟨-, h2, h3⟩ := near_costs hL x p.costs 0 h
  refine ⟨?_, h2⟩
  have := h3 0 0 0 0 near_zero
  simp only [zero_add] at this
  exact this

theorem near_violation (hL : AddsUp L) (p : Problem D (Dbl L)) (x : Fin n → Dbl L) (h : IsFin (violationAt p x)) :
    Near (violationAt p x) (exactViolation p x) (exactViolation p x) (violationOps p) 0 ∧
    ∀ r ∈ p.eqs, ∀ i, IsFin (valueAt r x i) := by
  obtain ⟨-, h2, h3⟩ := near_eqs hL x p.eqs 0 h
  refine ⟨?_, h2⟩
  have := h3 0 0 0 0 near_zero
  simp only [zero_add] at this
  exact this

theorem exactCost_nonneg (p : Problem D (Dbl L)) (x : Fin n → Dbl L) : 0 ≤ exactCost p x := by
  unfold exactCost
  refine List.sum_nonneg fun a ha => ?_
  obtain ⟨r, -, rfl⟩ := List.mem_map.mp ha
  have : 0 ≤ ∑ i, realVal (valueAt r x i) ^ 2 := Finset.sum_nonneg fun i _ => sq_nonneg _
  linarith

theorem exactViolation_nonneg (p : Problem D (Dbl L)) (x : Fin n → Dbl L) : 0 ≤ exactViolation p x := by
  unfold exactViolation
  refine List.sum_nonneg fun a ha => ?_
  obtain ⟨r, -, rfl⟩ := List.mem_map.mp ha
  exact Finset.sum_nonneg fun i _ => abs_nonneg _

/-- Not negative (NaN and `+inf` included). -/
def NonNeg (x : F64) : Prop := x ≠ .inf true ∧ 0 ≤ fval x

/-- The same, for `Dbl`. -/
abbrev NonNegD (x : Dbl L) : Prop := NonNeg x

theorem NonNeg.add {x y : F64} (hx : NonNeg x) (hy : NonNeg y) : NonNeg (F64.add x y) := by
  refine added_nonneg (l := [x, y]) (.add (.one x) (.one y) (List.Perm.refl _)) ?_
  intro e he
  simp only [List.mem_cons, List.not_mem_nil, or_false] at he
  rcases he with rfl | rfl
  · exact hx
  · exact hy

theorem nonneg_zero : NonNeg (F64.zero false) := ⟨(by intro h; cases h), le_of_eq (fval_zero false).symm⟩

theorem nonneg_abs (x : F64) : NonNeg (F64.abs x) := by
  refine ⟨?_, by rw [fval_abs]; exact abs_nonneg _⟩
  cases x <;> simp [F64.abs]

theorem violation_nonneg_val (hL : AddsUp L) (p : Problem D (Dbl L)) (x : Fin n → Dbl L) : NonNegD (violationAt p x) := by
  have key : ∀ (rs : List (Residual (Dbl L))) (f : Dbl L), NonNegD f →
      NonNegD (rs.foldl (fun f r => f + lpNorm1 (valueAt r x)) f) := by
    intro rs
    induction rs with
    | nil => intro f hf; exact hf
    | cons r rs ih =>
      intro f hf
      rw [List.foldl_cons]
      refine ih _ (hf.add (added_nonneg (hL (List.ofFn fun i => (F64.abs (valueAt r x i : Dbl L) : F64))) ?_))
      intro e he
      obtain ⟨i, rfl⟩ := List.mem_ofFn.mp he
      exact nonneg_abs _
  exact key p.eqs 0 nonneg_zero

theorem cost_nonneg_val (hL : AddsUp L) (p : Problem D (Dbl L)) (x : Fin n → Dbl L) (h : IsFin (costAt p x)) :
    NonNegD (costAt p x) := by
  have key : ∀ (rs : List (Residual (Dbl L))) (f : Dbl L), NonNegD f →
      IsFin (rs.foldl (fun f r => f + Residual.half * squaredNorm (valueAt r x)) f) →
      NonNegD (rs.foldl (fun f r => f + Residual.half * squaredNorm (valueAt r x)) f) := by
    intro rs
    induction rs with
    | nil => intro f hf _; exact hf
    | cons r rs ih =>
      intro f hf hfin
      have hfold := (near_costs hL x (r :: rs) f hfin).2.1 r (by simp)
      rw [List.foldl_cons] at hfin ⊢
      obtain ⟨h1, -⟩ := near_costs hL x rs _ hfin
      have hadd : Fin' (F64.add f (F64.mul (Residual.half : Dbl L) (squaredNorm (valueAt r x) : Dbl L))) := h1
      obtain ⟨f3, f4⟩ := mul_finite (add_finite hadd).2
      refine ih _ (hf.add ?_) hfin
      refine mul_nonneg_finite f3 f4 (by have : fval (Residual.half : Dbl L) = 1 / 2 := half_val
                                         exact (by norm_num : (0 : ℝ) ≤ 1 / 2).trans_eq this.symm) ?_
      refine (added_nonneg (hL (List.ofFn fun i => (F64.mul (valueAt r x i : Dbl L) (valueAt r x i : Dbl L) : F64))) ?_).2
      intro e he
      obtain ⟨i, rfl⟩ := List.mem_ofFn.mp he
      have hv := hfold i
      obtain ⟨s, m, hm⟩ := isFinite_iff.mp hv
      rw [hm]
      exact rounded_nonneg (ieee_mul s s m m).1 (mul_self_nonneg _)
  exact key p.costs 0 nonneg_zero h

/-- The computed merit function. -/
theorem near_merit (hL : AddsUp L) (p : Problem D (Dbl L)) (x : Fin n → Dbl L) (pen : Dbl L) (hpen : 0 ≤ pen)
    (h : IsFin ((errorsAt p x).total pen)) :
    Near ((errorsAt p x).total pen) (exactMerit p (realVal pen) x) (exactMerit p (realVal pen) x) (meritOps p) (meritOps p) := by
  have h' : Fin' (F64.add (costAt p x : Dbl L) (F64.mul pen (violationAt p x : Dbl L))) := h
  obtain ⟨f1, f2⟩ := add_finite h'
  obtain ⟨f3, f4⟩ := mul_finite f2
  have c := (near_cost hL p x f1).1
  have v := (near_violation hL p x f4).1
  have s := Approx.scale v f2 (Or.inr rfl)
  have t := Approx.add c s h'
  have hp : |fval pen| = realVal pen := by
    have := zero_le_real hpen
    rw [realVal_eq] at this ⊢
    exact abs_of_nonneg this
  have hp' : fval pen = realVal pen := (realVal_eq pen).symm
  rw [hp, hp'] at t
  unfold exactMerit meritOps
  exact t.weaken (by omega) (by omega)

/-- **C103**. A logged cost that is a finite double is the cost `½ Σ ‖r‖²` of the residual values in exact arithmetic, up to
the rounding errors of a number of operations that is linear in the number of residual values; the logged violation is the
exact `Σ ‖e‖₁`, up to a relative error. This holds for the point an iteration starts from and for every candidate point of
its line search, whatever order Eigen adds in. -/
theorem C103_logged_errors (hL : AddsUp L) (env : Env n D (Dbl L)) (hp : ConsistentP env.p) (prm : NLSParams (Dbl L))
    (x0 : Fin n → Dbl L) (o o' : env.Obj) (out : NLSOutputs (Dbl L)) (calls : List (NLSIteration (Dbl L)))
    (h : solve env prm x0 o = .ok (o', out, calls))
    (k : Nat) (it : NLSIteration (Dbl L)) (hit : out.iterations[k]? = some it) (a b : env.Obj)
    (ha : After env prm x0 o k a) (hb : After env prm x0 o (k + 1) b) :
    let Accurate := fun (e : Errors (Dbl L)) (y : Fin n → Dbl L) =>
      (Dbl.Finite e.f → |realVal e.f - exactCost env.p y| ≤ slop (costOps env.p) (costOps env.p) (exactCost env.p y)) ∧
      (Dbl.Finite e.equality →
        |realVal e.equality - exactViolation env.p y| ≤ slop (violationOps env.p) 0 (exactViolation env.p y))
    Accurate it.errorsInitial a.vars ∧
    ∀ st ∈ it.lineSearchSteps, ∃ y, Moves env a.vars b.dx st.alpha y ∧ Accurate st.errors y := by
  intro Accurate
  obtain ⟨h1, h2, -⟩ := C39_logged_errors env hp prm x0 o o' out calls h k it hit a b ha hb
  have acc : ∀ y : Fin n → Dbl L, Accurate (errorsAt env.p y) y := by
    intro y
    refine ⟨fun hf => ?_, fun hf => ?_⟩
    · have := (near_cost hL env.p y hf).1.err
      rw [realVal_eq]; exact this
    · have := (near_violation hL env.p y hf).1.err
      rw [realVal_eq]; exact this
  refine ⟨by rw [h1]; exact acc _, fun st hst => ?_⟩
  obtain ⟨y, hm, he⟩ := h2 st hst
  exact ⟨y, hm, by rw [he]; exact acc y⟩

/-- **C103**, exit. After `SATISFIED_ABSOLUTE_TOL` the exact cost and the exact violation at the returned point are below the
tolerance, up to rounding, and every residual value there is a finite double. -/
theorem C103_absolute_exit (hL : AddsUp L) (env : Env n D (Dbl L)) (hp : ConsistentP env.p) (prm : NLSParams (Dbl L))
    (x0 : Fin n → Dbl L) (o o' : env.Obj) (out : NLSOutputs (Dbl L)) (calls : List (NLSIteration (Dbl L)))
    (h : solve env prm x0 o = .ok (o', out, calls)) (hT : out.termination = .satisfiedAbsoluteTol)
    (htol : Dbl.Finite prm.absoluteExitTol) :
    exactCost env.p o'.vars ≤ realVal prm.absoluteExitTol + slop (costOps env.p) (costOps env.p) (exactCost env.p o'.vars) ∧
    exactViolation env.p o'.vars ≤ realVal prm.absoluteExitTol
      + slop (violationOps env.p) 0 (exactViolation env.p o'.vars) ∧
    ∀ r ∈ env.p.costs ++ env.p.eqs, ∀ i, Dbl.Finite (valueAt r o'.vars i) := by
  have hle : ∀ u : Dbl L, Dbl.Finite u → u < prm.absoluteExitTol → fval u ≤ fval prm.absoluteExitTol := by
    intro u hu hlt
    obtain ⟨s, m, rfl⟩ := isFinite_iff.mp hu
    obtain ⟨t, m', ht⟩ := isFinite_iff.mp htol
    have hlt' : F64.lt (.fin s m) prm.absoluteExitTol = true := hlt
    rw [ht] at hlt' ⊢
    have : F64.value s m < F64.value t m' := of_decide_eq_true hlt'
    show ((F64.value s m : ℚ) : ℝ) ≤ ((F64.value t m' : ℚ) : ℝ)
    exact_mod_cast this.le
  have hC := C46_termination env prm x0 o o' out calls h
  rw [hT] at hC
  obtain ⟨it, hlast, hs, st, hst, hlt⟩ := hC
  have hne : out.iterations ≠ [] := fun e => by rw [e] at hlast; cases hlast
  have hlen := List.length_pos_iff.mpr hne
  obtain ⟨hex, -, hfinal⟩ := C38_after env prm x0 o o' out calls h
  obtain ⟨a, ha, -⟩ := hex (out.iterations.length - 1) (by omega)
  obtain ⟨b, hb, -⟩ := hex out.iterations.length le_rfl
  have hidx : out.iterations[out.iterations.length - 1]? = some it := by rw [← List.getLast?_eq_getElem?]; exact hlast
  have hb' : After env prm x0 o (out.iterations.length - 1 + 1) b := by rw [Nat.sub_add_cancel hlen]; exact hb
  obtain ⟨-, -, h3⟩ := C39_logged_errors env hp prm x0 o o' out calls h _ it hidx a b ha hb'
  obtain ⟨st', hst', he⟩ := h3 hs
  rw [hst] at hst'
  obtain rfl := Option.some.inj hst'
  obtain ⟨st'', hst'', g1, g2, g3⟩ := C63_nls_success env prm x0 o o' out calls h it (List.mem_of_getElem? hidx) hs
  rw [hst] at hst''
  obtain rfl := Option.some.inj hst''
  obtain ⟨k1, k2⟩ := g3 _ hlt
  rw [he, hfinal b hb] at g1 g2 k1 k2
  obtain ⟨n1, v1⟩ := near_cost hL env.p o'.vars g1
  obtain ⟨n2, v2⟩ := near_violation hL env.p o'.vars g2
  have e1 := (abs_le.mp n1.err).1
  have e2 := (abs_le.mp n2.err).1
  have e3 := hle _ g1 k1
  have e4 := hle _ g2 k2
  rw [realVal_eq]
  refine ⟨?_, ?_, ?_⟩
  · have e3' : fval (costAt env.p o'.vars : Dbl L) ≤ fval prm.absoluteExitTol := e3
    linarith
  · have e4' : fval (violationAt env.p o'.vars : Dbl L) ≤ fval prm.absoluteExitTol := e4
    linarith
  · intro r hr
    rcases List.mem_append.mp hr with hr | hr
    · exact v1 r hr
    · exact v2 r hr

/-- **C103**, descent. An accepted step does not increase the merit function in exact arithmetic either, up to the rounding
errors of evaluating it twice (as long as the logged merit before the step is finite). -/
theorem C103_descent (hL : AddsUp L) (env : Env n D (Dbl L)) (hp : ConsistentP env.p) (prm : NLSParams (Dbl L))
    (x0 : Fin n → Dbl L) (o o' : env.Obj) (out : NLSOutputs (Dbl L)) (calls : List (NLSIteration (Dbl L)))
    (h : solve env prm x0 o = .ok (o', out, calls))
    (k : Nat) (it : NLSIteration (Dbl L)) (hit : out.iterations[k]? = some it) (a b : env.Obj)
    (ha : After env prm x0 o k a) (hb : After env prm x0 o (k + 1) b) (hs : it.stepResult = .success)
    (hfin : Dbl.Finite (it.errorsInitial.total it.penalty)) :
    exactMerit env.p (realVal it.penalty) b.vars ≤ exactMerit env.p (realVal it.penalty) a.vars
      + slop (meritOps env.p) (meritOps env.p) (exactMerit env.p (realVal it.penalty) a.vars)
      + slop (meritOps env.p) (meritOps env.p) (exactMerit env.p (realVal it.penalty) b.vars) := by
  have hmem := List.mem_of_getElem? hit
  obtain ⟨_, _, hw⟩ := C86_record env prm x0 o o' out calls h
  obtain ⟨-, -, -, hacc, -⟩ := C87_double _ env prm x0 o o' _ _ out calls hw
  obtain ⟨last, hlast, hle, g1, g2, -⟩ := hacc it hmem hs
  have hpen : 0 ≤ it.penalty := dbl_le_of_lt ((C44_double env prm x0 o o' out calls h).1 it hmem).2.1
  obtain ⟨h1, -, h3⟩ := C39_logged_errors env hp prm x0 o o' out calls h k it hit a b ha hb
  obtain ⟨st', hst', he⟩ := h3 hs
  rw [hlast] at hst'
  obtain rfl := Option.some.inj hst'
  rw [h1] at hfin hle
  rw [he] at g1 g2 hle
  have hpf : Fin' it.penalty := by
    have : Fin' (F64.add (costAt env.p a.vars : Dbl L) (F64.mul it.penalty (violationAt env.p a.vars : Dbl L))) := hfin
    exact (mul_finite (add_finite this).2).1
  have hnn : NonNegD ((errorsAt env.p b.vars).total it.penalty) := by
    refine NonNeg.add (cost_nonneg_val hL env.p b.vars g1) (mul_nonneg_finite hpf g2 ?_ (violation_nonneg_val hL env.p b.vars).2)
    have := zero_le_real hpen
    rwa [realVal_eq] at this
  have hnear := near_merit hL env.p a.vars it.penalty hpen hfin
  generalize hA : (errorsAt env.p a.vars).total it.penalty = A at *
  have hfin' : IsFin ((errorsAt env.p b.vars).total it.penalty) := by
    generalize (errorsAt env.p b.vars).total it.penalty = B at *
    have hle' : F64.le B A = true := hle
    obtain ⟨s, m, rfl⟩ := isFinite_iff.mp hfin
    cases B with
    | nan => cases hle'
    | inf t =>
      cases t with
      | true => exact absurd rfl hnn.1
      | false => cases hle'
    | fin t m' => rfl
  have hnear' := near_merit hL env.p b.vars it.penalty hpen hfin'
  have hval : fval ((errorsAt env.p b.vars).total it.penalty) ≤ fval A := by
    generalize (errorsAt env.p b.vars).total it.penalty = B at *
    have hle' : F64.le B A = true := hle
    obtain ⟨s, m, rfl⟩ := isFinite_iff.mp hfin
    obtain ⟨t, m', rfl⟩ := isFinite_iff.mp hfin'
    have : F64.value t m' ≤ F64.value s m := of_decide_eq_true hle'
    show ((F64.value t m' : ℚ) : ℝ) ≤ ((F64.value s m : ℚ) : ℝ)
    exact_mod_cast this
  have e1 := (abs_le.mp hnear.err).2
  have e2 := (abs_le.mp hnear'.err).1
  linarith

/-- Non-vacuity: in binary64 the solver finds `√2` from 5; with the test on the derivative switched off it ends with
`SATISFIED_ABSOLUTE_TOL`, and every step is accepted. -/
theorem C103_demo : (DemoF64.summary DemoF64.sqrt2 { DemoF64.prm 20 with absoluteFirstDerivativeTol := 0 } (DemoF64.d 5)).map
    (fun s => (s.1, s.2.1)) = some (.satisfiedAbsoluteTol, [.success, .success, .success, .success, .success]) := by
  decide +kernel

example : ConsistentP (DemoF64.env1 DemoF64.sqrt2).p ∧ Dbl.Finite (DemoF64.prm 20).absoluteExitTol ∧
    ∃ o' out calls, solve (DemoF64.env1 DemoF64.sqrt2) { DemoF64.prm 20 with absoluteFirstDerivativeTol := 0 }
      (fun _ => DemoF64.d 5) (DemoF64.obj1 DemoF64.sqrt2) = .ok (o', out, calls) ∧
      out.termination = .satisfiedAbsoluteTol := by
  obtain ⟨o', out, calls, h, h1, -⟩ := DemoF64.summary_run C103_demo
  refine ⟨?_, by decide +kernel, o', out, calls, h, h1⟩
  intro r hr
  have : r = DemoF64.sqrt2 := by simpa [DemoF64.env1] using hr
  subst this
  intro p; rfl

end MiniOpt.Props
