import Verif.Lemmas.RoundOff
import Verif.Props.DoublesState
import Verif.Props.QPResult

/-!
# C102: what `SATISFIED_KKT_TOL` means for the exact problem when everything is computed in binary64

The statements of C11 and C12 for the program as compiled: every operation rounded, sums in whatever order Eigen chooses.
-/

set_option autoImplicit false

namespace MiniOpt.Props

open MiniOpt MiniOpt.Spec MiniOpt.IP MiniOpt.F64

variable {L : Libm} {N M K : Nat}

/-! ### The residuals -/

theorem realVal_symLower (p : QP N M K (Dbl L)) (i j : Fin N) : realVal (symLower p.G i j) = Gsym (realQP p) i j := by
  unfold symLower Gsym realQP
  split_ifs with h
  · simp only [max_eq_left h, min_eq_right h]
  · have h' : i ≤ j := (not_le.mp h).le
    simp only [max_eq_right h', min_eq_left h']

/-- The loop subtracting the multipliers of the inequality constraints. -/
theorem near_fold (p : QP N M K (Dbl L)) (z : Fin M → Dbl L) (i : Fin N) : ∀ (l : List (Fin M)) (rd : Fin N → Dbl L),
    IsFin (l.foldl (fun rd m => Function.update rd (p.con m).var (rd (p.con m).var - (p.con m).a * z m)) rd i) →
    IsFin (rd i) ∧ (∀ m ∈ l, (p.con m).var = i → IsFin (z m)) ∧
    ∀ (v a : ℝ) (n k : Nat), 1 ≤ n → Near (rd i) v a n k →
      Near (l.foldl (fun rd m => Function.update rd (p.con m).var (rd (p.con m).var - (p.con m).a * z m)) rd i)
        (v - (l.map fun m => if (p.con m).var = i then realVal (p.con m).a * realVal (z m) else 0).sum)
        (a + (l.map fun m => if (p.con m).var = i then |realVal (p.con m).a * realVal (z m)| else 0).sum)
        (n + l.length) (k + l.length) := by
  intro l
  induction l with
  | nil =>
    intro rd h
    refine ⟨h, by simp, fun v a n k _ hn => ?_⟩
    simpa using hn
  | cons m l ih =>
    intro rd h
    rw [List.foldl_cons] at h ⊢
    obtain ⟨h1, h2, h3⟩ := ih _ h
    by_cases hm : (p.con m).var = i
    · have e : Function.update rd (p.con m).var (rd (p.con m).var - (p.con m).a * z m) i = rd i - (p.con m).a * z m := by
        subst hm; rw [Function.update_self]
      rw [e] at h1 h3
      have hsub : Fin' (F64.add (rd i) (F64.neg (F64.mul (p.con m).a (z m)))) := h1
      have hfm := neg_finite.mp (add_finite hsub).2
      refine ⟨(add_finite hsub).1, ?_, ?_⟩
      · intro m' hm' hv
        rcases List.mem_cons.mp hm' with rfl | hm'
        · exact (mul_finite hfm).2
        · exact h2 m' hm' hv
      · intro v a n k hn hnear
        have hs := Approx.sub hnear (Approx.mul hfm) hsub
        have := h3 _ _ _ _ (by omega) hs
        simp only [List.map_cons, List.sum_cons, List.length_cons, if_pos hm]
        rw [Nat.max_eq_left hn] at this
        have e1 : ∀ S : ℝ, v - (realVal (p.con m).a * realVal (z m) + S) = v - fval (p.con m).a * fval (z m) - S := by
          intro S; rw [realVal_eq, realVal_eq]; ring
        have e2 : ∀ S : ℝ, a + (|realVal (p.con m).a * realVal (z m)| + S) = a + |fval (p.con m).a * fval (z m)| + S := by
          intro S; rw [realVal_eq, realVal_eq]; ring
        rw [e1, e2]
        exact this.weaken (by omega) (by omega)
    · have e : Function.update rd (p.con m).var (rd (p.con m).var - (p.con m).a * z m) i = rd i := by
        rw [Function.update_of_ne (Ne.symm hm)]
      rw [e] at h1 h3
      refine ⟨h1, ?_, ?_⟩
      · intro m' hm' hv
        rcases List.mem_cons.mp hm' with rfl | hm'
        · exact absurd hv hm
        · exact h2 m' hm' hv
      · intro v a n k hn hnear
        have := h3 v a n k hn hnear
        simp only [List.map_cons, List.sum_cons, List.length_cons, if_neg hm, zero_add]
        exact this.weaken (by omega) (by omega)

/-- The computed gradient of the Lagrangian. -/
theorem near_dual (hL : AddsUp L) (p : QP N M K (Dbl L)) (st : IPState N M K (Dbl L)) (i : Fin N)
    (h : IsFin ((evaluateKKT p true st).r.x i)) :
    Near ((evaluateKKT p true st).r.x i) (gradLagrangian (realQP p) (realBlocks st.v) i)
      (gradMagnitude (realQP p) (realBlocks st.v) i) (N + K + M + 2) (N + K + M) ∧
    (∀ j, IsFin (st.v.x j)) ∧ (∀ k, IsFin (st.v.y k)) ∧ ∀ m, (p.con m).var = i → IsFin (st.v.z m) := by
  obtain ⟨h1, h2, h3⟩ := near_fold p st.v.z i (List.finRange M) _ h
  have hxs : ∀ rd0 : Dbl L, rd0 = matVec (symLower p.G) st.v.x i + p.c i → IsFin rd0 →
      Near rd0 ((∑ j, Gsym (realQP p) i j * (realBlocks st.v).x j) + (realQP p).c i)
        ((∑ j, |Gsym (realQP p) i j * (realBlocks st.v).x j|) + |(realQP p).c i|) (N + 1) N ∧ ∀ j, IsFin (st.v.x j) := by
    rintro rd0 rfl hf
    have hf' : Fin' (F64.add (dot (symLower p.G i) st.v.x : Dbl L) (p.c i)) := hf
    obtain ⟨f1, f2⟩ := add_finite hf'
    obtain ⟨d1, d2⟩ := near_dot hL _ _ f1
    have := Approx.add d1 (Approx.exact f2) hf'
    simp only [realVal_symLower] at this
    refine ⟨?_, fun j => (d2 j).2⟩
    have e : (realQP p).c i = fval (p.c i) := realVal_eq _
    rw [e]
    exact this.weaken (by omega) (by omega)
  have key : IsFin ((if 0 < K then fun i => (matVec (symLower p.G) st.v.x i + p.c i) - matTVec p.A st.v.y i
        else fun i => matVec (symLower p.G) st.v.x i + p.c i) i) →
      Near ((if 0 < K then fun i => (matVec (symLower p.G) st.v.x i + p.c i) - matTVec p.A st.v.y i
        else fun i => matVec (symLower p.G) st.v.x i + p.c i) i)
        ((∑ j, Gsym (realQP p) i j * (realBlocks st.v).x j) + (realQP p).c i
          - ∑ k, (realQP p).A k i * (realBlocks st.v).y k)
        ((∑ j, |Gsym (realQP p) i j * (realBlocks st.v).x j|) + |(realQP p).c i|
          + ∑ k, |(realQP p).A k i * (realBlocks st.v).y k|) (N + K + 2) (N + K) ∧
      (∀ j, IsFin (st.v.x j)) ∧ ∀ k, IsFin (st.v.y k) := by
    by_cases hK : 0 < K
    · simp only [if_pos hK]
      intro hf
      have hf' : Fin' (F64.add (matVec (symLower p.G) st.v.x i + p.c i : Dbl L) (F64.neg (matTVec p.A st.v.y i : Dbl L))) := hf
      obtain ⟨f1, f2⟩ := add_finite hf'
      obtain ⟨a1, a2⟩ := hxs _ rfl f1
      obtain ⟨d1, d2⟩ := near_dot hL _ _ (neg_finite.mp f2)
      exact ⟨(Approx.sub a1 d1 hf').weaken (by omega) (by omega), a2, fun k => (d2 k).2⟩
    · simp only [if_neg hK]
      obtain rfl : K = 0 := by omega
      intro hf
      obtain ⟨a1, a2⟩ := hxs _ rfl hf
      refine ⟨?_, a2, fun k => k.elim0⟩
      simp only [Finset.univ_eq_empty, Finset.sum_empty, sub_zero, add_zero]
      exact a1.weaken (by omega) (by omega)
  obtain ⟨k1, k2, k3⟩ := key h1
  have := h3 _ _ _ _ (by omega) k1
  refine ⟨?_, k2, k3, fun m hm => h2 m (List.mem_finRange m) hm⟩
  rw [List.length_finRange] at this
  unfold gradLagrangian gradMagnitude
  rw [Fin.sum_univ_def (fun m => if ((realQP p).con m).var = i then ((realQP p).con m).a * (realBlocks st.v).z m else 0),
    Fin.sum_univ_def (fun m => if ((realQP p).con m).var = i then |((realQP p).con m).a * (realBlocks st.v).z m| else 0)]
  exact this.weaken (by omega) (by omega)

/-- The computed equality residual. -/
theorem near_eq (hL : AddsUp L) (p : QP N M K (Dbl L)) (st : IPState N M K (Dbl L)) (k : Fin K)
    (h : IsFin ((evaluateKKT p true st).r.y k)) :
    Near ((evaluateKKT p true st).r.y k) (eqVal (realQP p) (realBlocks st.v).x k)
      (eqMagnitude (realQP p) (realBlocks st.v).x k) (N + 1) N := by
  have hK : 0 < K := Nat.lt_of_le_of_lt (Nat.zero_le _) k.isLt
  have e : (evaluateKKT p true st).r.y k = matVec p.A st.v.x k + p.b k := by
    simp only [evaluateKKT, if_pos hK, if_true]
  rw [e] at h ⊢
  have hf' : Fin' (F64.add (dot (p.A k) st.v.x : Dbl L) (p.b k)) := h
  obtain ⟨f1, f2⟩ := add_finite hf'
  obtain ⟨d1, -⟩ := near_dot hL _ _ f1
  have := Approx.add d1 (Approx.exact f2) hf'
  have e2 : (realQP p).b k = fval (p.b k) := realVal_eq _
  unfold eqVal eqMagnitude
  rw [e2]
  exact this.weaken (by omega) (by omega)

/-- The computed slack residual. -/
theorem near_ineq (p : QP N M K (Dbl L)) (st : IPState N M K (Dbl L)) (m : Fin M)
    (h : IsFin ((evaluateKKT p true st).r.z m)) :
    Near ((evaluateKKT p true st).r.z m) (ineqVal (realQP p) (realBlocks st.v).x m - (realBlocks st.v).s m)
      (ineqMagnitude (realQP p) (realBlocks st.v) m) 3 1 ∧ IsFin (st.v.s m) := by
  have hf : Fin' (F64.add (F64.add (F64.mul (p.con m).a (st.v.x (p.con m).var)) (p.con m).b) (F64.neg (st.v.s m))) := h
  obtain ⟨f1, f2⟩ := add_finite hf
  obtain ⟨f3, f4⟩ := add_finite f1
  have h1 := Approx.add (Approx.mul f3) (Approx.exact f4) f1
  have h2 := Approx.sub h1 (Approx.exact (neg_finite.mp f2)) hf
  refine ⟨?_, neg_finite.mp f2⟩
  have e1 : ((realQP p).con m).a = fval (p.con m).a := realVal_eq _
  have e2 : ((realQP p).con m).b = fval (p.con m).b := realVal_eq _
  have e3 : (realBlocks st.v).x (p.con m).var = fval (st.v.x (p.con m).var) := realVal_eq _
  have e4 : (realBlocks st.v).s m = fval (st.v.s m) := realVal_eq _
  have e5 : ((realQP p).con m).var = (p.con m).var := rfl
  unfold ineqVal ineqMagnitude
  rw [e5, e1, e2, e3, e4]
  exact h2

/-! ### Norms -/

theorem l2_le_add {n : Nat} (u w e : Fin n → ℝ) (h : ∀ i, |w i - u i| ≤ e i) : l2 u ≤ l2 w + l2 e := by
  have he : ∀ i, 0 ≤ e i := fun i => (abs_nonneg _).trans (h i)
  have hw := l2_nonneg w
  have hen := l2_nonneg e
  have sq : ∀ v : Fin n → ℝ, l2 v ^ 2 = ∑ i, v i ^ 2 := fun v => by
    unfold l2; exact Real.sq_sqrt (Finset.sum_nonneg fun i _ => sq_nonneg _)
  have habs : l2 (fun i => |w i|) = l2 w := by unfold l2; simp only [sq_abs]
  have hc := sum_mul_le_l2 (fun i => |w i|) e
  rw [habs] at hc
  refine abs_le_of_sq_le_sq' (le_trans ?_ (le_refl _)) (by linarith) |>.2
  rw [sq u]
  calc ∑ i, u i ^ 2 ≤ ∑ i, (|w i| + e i) ^ 2 := by
        refine Finset.sum_le_sum fun i _ => ?_
        have h1 : |u i| ≤ |w i| + e i := by
          have h2 := abs_sub_abs_le_abs_sub (u i) (w i)
          rw [abs_sub_comm] at h2
          have := h i
          linarith
        rw [← sq_abs]
        exact pow_le_pow_left₀ (abs_nonneg _) h1 2
    _ = (∑ i, w i ^ 2) + 2 * (∑ i, |w i| * e i) + ∑ i, e i ^ 2 := by
        rw [Finset.mul_sum, ← Finset.sum_add_distrib, ← Finset.sum_add_distrib]
        refine Finset.sum_congr rfl fun i _ => ?_
        rw [← sq_abs (w i)]; ring
    _ ≤ (l2 w + l2 e) ^ 2 := by rw [add_sq, sq w, sq e]; linarith

theorem norm_exact (hL : AddsUp L) {n : Nat} (r : Fin n → Dbl L) (v a : Fin n → ℝ) (k m : Nat) (t : Dbl L) (ht : IsFin t)
    (hr : norm2 r < t) (h : ∀ i, IsFin (r i) → Near (r i) (v i) (a i) k m) :
    (∀ i, IsFin (r i)) ∧ l2 v ≤ inflated n (realVal t) + l2 fun i => slop k m (a i) := by
  obtain ⟨hf, hl⟩ := norm2_lt hL r t ht hr
  refine ⟨hf, (l2_le_add v (fun i => realVal (r i)) (fun i => slop k m (a i)) fun i => ?_).trans (by linarith)⟩
  rw [realVal_eq]
  exact (h i (hf i)).err

theorem rounded_nonneg {x : ℝ} {z : F64} (hr : IsRounded x z) (hx : 0 ≤ x) : z ≠ .inf true ∧ 0 ≤ fval z := by
  cases z with
  | nan => exact hr.elim
  | inf w =>
    refine ⟨?_, by simp [fval]⟩
    intro hw
    injection hw with hw
    exact absurd (hr.2.mp hw) (not_lt.mpr hx)
  | fin w c =>
    refine ⟨by simp, ?_⟩
    have hz := hr.2.2.1 0 ⟨0, 0, by norm_num, by norm_num, by norm_num, by simp⟩
    have e3 : realOf w c = fval (.fin w c) := (value_real w c).symm
    rw [e3, zero_sub, abs_neg, abs_of_nonneg hx] at hz
    have := (abs_le.mp hz).1
    linarith

/-- A sum of numbers that are not negative. -/
theorem added_nonneg {l : List F64} {x : F64} (h : AddedUp l x)
    (hl : ∀ e ∈ l, e ≠ .inf true ∧ 0 ≤ fval e) : x ≠ .inf true ∧ 0 ≤ fval x := by
  induction h with
  | none => exact ⟨by simp [F64.zero], by rw [fval_zero]⟩
  | one x => exact hl x (by simp)
  | @add l l' l'' x y h1 h2 hp ih1 ih2 =>
    obtain ⟨a1, a2⟩ := ih1 fun e he => hl e (hp.mem_iff.mpr (List.mem_append_left _ he))
    obtain ⟨b1, b2⟩ := ih2 fun e he => hl e (hp.mem_iff.mpr (List.mem_append_right _ he))
    cases x with
    | nan => exact ⟨by simp [F64.add], by simp [F64.add, fval]⟩
    | inf s =>
      cases s with
      | true => exact absurd rfl a1
      | false =>
        cases y with
        | nan => exact ⟨by simp [F64.add], by simp [F64.add, fval]⟩
        | inf t =>
          cases t with
          | true => exact absurd rfl b1
          | false => exact ⟨by simp [F64.add], by simp [F64.add, fval]⟩
        | fin t b => exact ⟨by simp [F64.add], by simp [F64.add, fval]⟩
    | fin s a =>
      cases y with
      | nan => exact ⟨by simp [F64.add], by simp [F64.add, fval]⟩
      | inf t =>
        cases t with
        | true => exact absurd rfl b1
        | false => exact ⟨by simp [F64.add], by simp [F64.add, fval]⟩
      | fin t b =>
        have e1 : realOf s a = fval (.fin s a) := (value_real s a).symm
        have e2 : realOf t b = fval (.fin t b) := (value_real t b).symm
        exact rounded_nonneg (ieee_add s t a b).1 (by rw [e1, e2]; exact add_nonneg a2 b2)

theorem mul_nonneg_finite {x y : F64} (hx : Fin' x) (hy : Fin' y) (hx0 : 0 ≤ fval x) (hy0 : 0 ≤ fval y) :
    F64.mul x y ≠ .inf true ∧ 0 ≤ fval (F64.mul x y) := by
  obtain ⟨s, a, rfl⟩ := isFinite_iff.mp hx
  obtain ⟨t, b, rfl⟩ := isFinite_iff.mp hy
  have e1 : realOf s a = fval (.fin s a) := (value_real s a).symm
  have e2 : realOf t b = fval (.fin t b) := (value_real t b).symm
  exact rounded_nonneg (ieee_mul s t a b).1 (by rw [e1, e2]; exact mul_nonneg hx0 hy0)

/-- Counts up to `2^53` are exact. -/
theorem lit_nat (m : Nat) (hm : m ≤ 2 ^ 53) : IsFin (Scalar.lit (m : ℚ) : Dbl L) ∧ realVal (Scalar.lit (m : ℚ) : Dbl L) = m := by
  rw [realVal_eq]
  have hr : IsRounded (((m : ℚ)) : ℝ) (F64.round false (m : ℚ)) := round_rounded false (m : ℚ)
  rw [Rat.cast_natCast] at hr
  have hmr : (m : ℝ) ≤ 2 ^ 53 := by exact_mod_cast hm
  have hd : IsDouble (m : ℝ) := by
    rcases Nat.lt_or_eq_of_le hm with h | h
    · exact ⟨m, 0, h, by norm_num, by norm_num, by simp⟩
    · refine ⟨2 ^ 52, 1, by norm_num, by norm_num, by norm_num, ?_⟩
      subst h; norm_num
  show Fin' (F64.round false (m : ℚ)) ∧ fval (F64.round false (m : ℚ)) = m
  cases hx : F64.round false (m : ℚ) with
  | nan => rw [hx] at hr; exact hr.elim
  | inf s =>
    rw [hx] at hr
    exfalso
    have h1 := hr.1
    rw [overflow_eq, abs_of_nonneg (Nat.cast_nonneg m)] at h1
    have h7 : (2 : ℝ) ^ (1024 : ℤ) = 2 ^ 54 * (2 : ℝ) ^ (970 : ℤ) := by
      rw [show (1024 : ℤ) = 54 + 970 from rfl, two_zpow_add]; norm_num
    rw [h7] at h1
    have h8 : (1 : ℝ) ≤ (2 : ℝ) ^ (970 : ℤ) := one_le_zpow₀ (by norm_num) (by norm_num)
    generalize (2 : ℝ) ^ (970 : ℤ) = g at *
    nlinarith only [h1, h8, hmr]
  | fin s b =>
    rw [hx] at hr
    refine ⟨rfl, ?_⟩
    have h1 := hr.2.2.1 _ hd
    rw [sub_self, abs_zero] at h1
    have h2 : realOf s b = fval (.fin s b) := (value_real s b).symm
    rw [h2] at h1
    exact sub_eq_zero.mp (abs_eq_zero.mp (_root_.le_antisymm h1 (abs_nonneg _)))

/-! ### The theorems -/

theorem fresh_final {α : Type} [Scalar α] {E : Eigen N K α} {p : QP N M K α} {prm : QPParams α} {st : IPState N M K α}
    {r : IPState N M K α × QPOutputs α} (h : solve E p prm st = .ok r) :
    ∃ s it mu, r.1 = evaluateKKT p true s ∧ s.v = r.1.v ∧ r.2.iterations.getLast? = some it ∧
      it.kktFinal = computeErrors mu (evaluateKKT p true s) := by
  obtain ⟨st0, sts, mus, h0, ht, h1, h2, h3, -⟩ := solve_traj h
  obtain ⟨j, hj⟩ : ∃ j, r.2.iterations.length = j + 1 := ⟨r.2.iterations.length - 1, by omega⟩
  have hjl : j < r.2.iterations.length := by omega
  have hb := ht.body j hjl
  obtain ⟨s, -, hs⟩ := hb.out
  have hr : r.1 = evaluateKKT p true s := by rw [h3, hj, hs]
  refine ⟨s, r.2.iterations[j], mus j, hr, by rw [hr, evaluateKKT_v'], ?_, ?_⟩
  · rw [List.getLast?_eq_getElem?, hj]; simp
  · rw [hb.fin, hs]

theorem zero_le_real {x : Dbl L} (h : 0 ≤ x) : 0 ≤ realVal x := by
  rw [realVal_eq]
  have h' : F64.le (F64.zero false) x = true := h
  cases x with
  | nan => simp [fval]
  | inf s => simp [fval]
  | fin s a =>
    have := zero_le_fin.mp h'
    show (0 : ℝ) ≤ ((F64.value s a : ℚ) : ℝ)
    exact_mod_cast this

/-- **C102**. `SATISFIED_KKT_TOL` reported by the program as compiled - binary64, every operation rounded, Eigen's sums in
any order, any linear solver - says something about the exact problem: if no logged residual norm is NaN, the returned
variables are finite, and the exact residuals of the exact problem have Euclidean norms of at most `termination_kkt_tol`,
plus the rounding errors of the terms they consist of. -/
theorem C102_satisfied_double (hL : AddsUp L) (E : Eigen N K (Dbl L)) (p : QP N M K (Dbl L)) (prm : QPParams (Dbl L))
    (st : IPState N M K (Dbl L)) (r : IPState N M K (Dbl L) × QPOutputs (Dbl L)) (h : solve E p prm st = .ok r)
    (hT : r.2.termination = .satisfiedKktTol) (htol : Dbl.Finite prm.terminationKktTol)
    (hnan : ∀ it, r.2.iterations.getLast? = some it → it.kktFinal.rPrimalEq ≠ F64.nan ∧ it.kktFinal.rPrimalIneq ≠ F64.nan) :
    (∀ i, Dbl.Finite (r.1.v.x i)) ∧ (∀ m, Dbl.Finite (r.1.v.s m) ∧ Dbl.Finite (r.1.v.z m)) ∧
    (0 < N → ∀ k, Dbl.Finite (r.1.v.y k)) ∧
    l2 (gradLagrangian (realQP p) (realBlocks r.1.v)) ≤ inflated N (realVal prm.terminationKktTol)
      + l2 (fun i => slop (N + K + M + 2) (N + K + M) (gradMagnitude (realQP p) (realBlocks r.1.v) i)) ∧
    l2 (eqVal (realQP p) (realBlocks r.1.v).x) ≤ inflated K (realVal prm.terminationKktTol)
      + l2 (fun k => slop (N + 1) N (eqMagnitude (realQP p) (realBlocks r.1.v).x k)) ∧
    l2 (fun m => ineqVal (realQP p) (realBlocks r.1.v).x m - (realBlocks r.1.v).s m)
      ≤ inflated M (realVal prm.terminationKktTol)
      + l2 (fun m => slop 3 1 (ineqMagnitude (realQP p) (realBlocks r.1.v) m)) := by
  obtain ⟨it, hit, -, hd, hother, -⟩ := C63_qp_exit E p prm st r h hT
  obtain ⟨s, it', mu, hr, hv, hit', hk⟩ := fresh_final h
  rw [hit] at hit'
  obtain rfl := Option.some.inj hit'
  obtain ⟨hn1, hn2⟩ := hnan it hit
  have he := (hother it.kktFinal.rPrimalEq (by simp)).resolve_right hn1
  have hi := (hother it.kktFinal.rPrimalIneq (by simp)).resolve_right hn2
  rw [hk] at hd he hi
  rw [← hv]
  obtain ⟨fx, bx⟩ := norm_exact hL _ (gradLagrangian (realQP p) (realBlocks s.v)) (gradMagnitude (realQP p) (realBlocks s.v))
    _ _ _ htol hd fun i hf => (near_dual hL p s i hf).1
  have hE : l2 (eqVal (realQP p) (realBlocks s.v).x) ≤ inflated K (realVal prm.terminationKktTol)
      + l2 (fun k => slop (N + 1) N (eqMagnitude (realQP p) (realBlocks s.v).x k)) := by
    by_cases hK : 0 < K
    · simp only [computeErrors, if_pos hK] at he
      exact (norm_exact hL _ _ (eqMagnitude (realQP p) (realBlocks s.v).x) _ _ _ htol he fun k hf => near_eq hL p s k hf).2
    · obtain rfl : K = 0 := by omega
      have h0 : ∀ u : Fin 0 → ℝ, l2 u = 0 := fun u => by simp [l2]
      rw [h0, h0, add_zero]
      exact Real.sqrt_nonneg _
  have hI : (∀ m, Dbl.Finite (s.v.s m)) ∧ l2 (fun m => ineqVal (realQP p) (realBlocks s.v).x m - (realBlocks s.v).s m)
      ≤ inflated M (realVal prm.terminationKktTol)
      + l2 (fun m => slop 3 1 (ineqMagnitude (realQP p) (realBlocks s.v) m)) := by
    by_cases hM : 0 < M
    · simp only [computeErrors, if_pos hM] at hi
      obtain ⟨f1, f2⟩ := norm_exact hL _ (fun m => ineqVal (realQP p) (realBlocks s.v).x m - (realBlocks s.v).s m)
        (ineqMagnitude (realQP p) (realBlocks s.v)) _ _ _ htol hi fun m hf => (near_ineq p s m hf).1
      exact ⟨fun m => (near_ineq p s m (f1 m)).2, f2⟩
    · obtain rfl : M = 0 := by omega
      have h0 : ∀ u : Fin 0 → ℝ, l2 u = 0 := fun u => by simp [l2]
      refine ⟨fun m => m.elim0, ?_⟩
      rw [h0, h0, add_zero]
      exact Real.sqrt_nonneg _
  exact ⟨fun i => (near_dual hL p s i (fx i)).2.1 i,
    fun m => ⟨hI.1 m, (near_dual hL p s (p.con m).var (fx _)).2.2.2 m rfl⟩,
    fun hN => (near_dual hL p s ⟨0, hN⟩ (fx _)).2.2.1, bx, hE, hI.2⟩

/-- **C102**, complementarity. If moreover the slacks and multipliers are not negative, their exact products add up to at most
`M * termination_complementarity_tol`, up to rounding. -/
theorem C102_complementarity_double (hL : AddsUp L) (E : Eigen N K (Dbl L)) (p : QP N M K (Dbl L)) (prm : QPParams (Dbl L))
    (st : IPState N M K (Dbl L)) (r : IPState N M K (Dbl L) × QPOutputs (Dbl L)) (h : solve E p prm st = .ok r)
    (hT : r.2.termination = .satisfiedKktTol) (htol : Dbl.Finite prm.terminationKktTol)
    (hctol : Dbl.Finite prm.terminationComplementarityTol) (hM : M ≤ 2 ^ 53)
    (hnan : ∀ it, r.2.iterations.getLast? = some it → it.kktFinal.rPrimalEq ≠ F64.nan ∧ it.kktFinal.rPrimalIneq ≠ F64.nan)
    (hs : ∀ m, 0 ≤ r.1.v.s m) (hz : ∀ m, 0 ≤ r.1.v.z m) :
    (∑ m, (realBlocks r.1.v).s m * (realBlocks r.1.v).z m) ≤ M * realVal prm.terminationComplementarityTol
      + slop M M (∑ m, (realBlocks r.1.v).s m * (realBlocks r.1.v).z m) := by
  obtain ⟨it, hit, -, -, -, hc, -⟩ := C63_qp_exit E p prm st r h hT
  obtain ⟨-, hf, -⟩ := C102_satisfied_double hL E p prm st r h hT htol hnan
  by_cases hM0 : 0 < M
  · rw [if_pos hM0] at hc
    have hmul : ∀ m, F64.mul (r.1.v.s m) (r.1.v.z m) ≠ .inf true ∧ 0 ≤ fval (F64.mul (r.1.v.s m) (r.1.v.z m)) := fun m => by
      refine mul_nonneg_finite (hf m).1 (hf m).2 ?_ ?_
      · have := zero_le_real (hs m); rwa [realVal_eq] at this
      · have := zero_le_real (hz m); rwa [realVal_eq] at this
    have hsum := hL (List.ofFn fun m => (F64.mul (r.1.v.s m) (r.1.v.z m) : F64))
    have hnn := added_nonneg hsum (by
      intro e he
      obtain ⟨m, rfl⟩ := List.mem_ofFn.mp he
      exact hmul m)
    obtain ⟨l1, l2'⟩ := lit_nat (L := L) M hM
    rw [realVal_eq] at l2'
    have hc' : F64.lt (F64.div (dot r.1.v.s r.1.v.z : Dbl L) (Scalar.lit (M : ℚ) : Dbl L)) prm.terminationComplementarityTol
        = true := hc
    obtain ⟨hfin, hlt⟩ := div_lt l1 (by rw [l2']; exact_mod_cast hM0) hctol hc' hnn.1
    obtain ⟨hnear, -⟩ := near_dot hL _ _ hfin
    have he := hnear.err
    have habs : (∑ m, |realVal (r.1.v.s m) * realVal (r.1.v.z m)|) = ∑ m, realVal (r.1.v.s m) * realVal (r.1.v.z m) :=
      Finset.sum_congr rfl fun m _ => abs_of_nonneg (mul_nonneg (zero_le_real (hs m)) (zero_le_real (hz m)))
    rw [habs] at he
    rw [l2'] at hlt
    have := (abs_le.mp he).1
    show (∑ m, realVal (r.1.v.s m) * realVal (r.1.v.z m)) ≤ M * realVal prm.terminationComplementarityTol
      + slop M M (∑ m, realVal (r.1.v.s m) * realVal (r.1.v.z m))
    rw [realVal_eq prm.terminationComplementarityTol]
    linarith
  · obtain rfl : M = 0 := by omega
    simp [slop]

/-- **C102**, what a user gets. With slacks and multipliers that are not negative: no inequality constraint of the exact problem
is violated by more than `termination_kkt_tol` and the rounding error, no equality constraint either; and if the exact
problem is convex, the exact objective exceeds that of any feasible point by no more than the tolerances allow. -/
theorem C102_near_optimal_double (hL : AddsUp L) (E : Eigen N K (Dbl L)) (p : QP N M K (Dbl L)) (prm : QPParams (Dbl L))
    (st : IPState N M K (Dbl L)) (r : IPState N M K (Dbl L) × QPOutputs (Dbl L)) (h : solve E p prm st = .ok r)
    (hT : r.2.termination = .satisfiedKktTol) (htol : Dbl.Finite prm.terminationKktTol)
    (hctol : Dbl.Finite prm.terminationComplementarityTol) (hM : M ≤ 2 ^ 53)
    (hnan : ∀ it, r.2.iterations.getLast? = some it → it.kktFinal.rPrimalEq ≠ F64.nan ∧ it.kktFinal.rPrimalIneq ≠ F64.nan)
    (hs : ∀ m, 0 ≤ r.1.v.s m) (hz : ∀ m, 0 ≤ r.1.v.z m) :
    let P := realQP p
    let V := realBlocks r.1.v
    let tol := realVal prm.terminationKktTol
    let dualTol := inflated N tol + l2 (fun i => slop (N + K + M + 2) (N + K + M) (gradMagnitude P V i))
    let eqTol := inflated K tol + l2 (fun k => slop (N + 1) N (eqMagnitude P V.x k))
    let ineqTol := inflated M tol + l2 (fun m => slop 3 1 (ineqMagnitude P V m))
    (∀ m, -ineqTol ≤ ineqVal P V.x m) ∧ (∀ k, |eqVal P V.x k| ≤ eqTol) ∧
    (PSDG P → ∀ x' : Fin N → ℝ, Feasible P x' →
      objective P V.x - objective P x' ≤ M * realVal prm.terminationComplementarityTol
        + slop M M (∑ m, V.s m * V.z m) + dualTol * l2 (fun i => V.x i - x' i) + eqTol * l2 V.y + ineqTol * l2 V.z) := by
  intro P V tol dualTol eqTol ineqTol
  obtain ⟨-, -, -, h1, h2, h3⟩ := C102_satisfied_double hL E p prm st r h hT htol hnan
  have h4 := C102_complementarity_double hL E p prm st r h hT htol hctol hM hnan hs hz
  refine ⟨fun m => ?_, fun k => (abs_le_l2 (eqVal P V.x) k).trans h2, fun hG x' hx' => ?_⟩
  · have h5 := (abs_le_l2 (fun m => ineqVal P V.x m - V.s m) m).trans h3
    have h6 : 0 ≤ V.s m := zero_le_real (hs m)
    have := (abs_le.mp h5).1
    linarith
  · have hb := gap_bound P hG V (fun m => zero_le_real (hz m)) x' hx'
    have b1 := mul_le_mul_of_nonneg_right h1 (l2_nonneg fun i => V.x i - x' i)
    have b2 := mul_le_mul_of_nonneg_right h2 (l2_nonneg V.y)
    have b4 := mul_le_mul_of_nonneg_right h3 (l2_nonneg V.z)
    linarith

/-! ### The bounds in plain numbers -/

/-- **C102**, size of the rounding terms: for up to `2^52` operations the accumulated error is at most `2 n` units of roundoff
of the magnitudes (plus underflows), and the tolerance is inflated by at most `n + 1` units. -/
theorem C102_slop_small (n m : Nat) (a t : ℝ) (hn : n ≤ 2 ^ 52) (ha : 0 ≤ a) (ht : 0 ≤ t) :
    slop n m a ≤ 2 * n * unitRoundoff * a + 2 * m * underflow ∧
    (n * underflow ≤ unitRoundoff * t ^ 2 → inflated n t ≤ (1 + (n + 1) * unitRoundoff) * t) := by
  have hu := unit_pos
  have hη := under_pos
  have hnu : 2 * (n : ℝ) * unitRoundoff ≤ 1 := by
    have h1 : (n : ℝ) ≤ 2 ^ 52 := by exact_mod_cast hn
    have h2 : unitRoundoff = 1 / 2 ^ 53 := by unfold unitRoundoff; norm_num
    rw [h2]
    have : 2 * (n : ℝ) ≤ 2 ^ 53 := by linarith
    rw [mul_one_div, div_le_one (by norm_num)]
    exact this
  have hpow : ∀ k : Nat, k ≤ n → (1 + unitRoundoff) ^ k ≤ 1 + 2 * k * unitRoundoff := by
    intro k
    induction k with
    | zero => intro _; simp
    | succ k ih =>
      intro hk
      have h1 := ih (by omega)
      have h2 : 2 * (k : ℝ) * unitRoundoff ≤ 1 := by
        have : (k : ℝ) ≤ n := by exact_mod_cast (by omega : k ≤ n)
        have := mul_le_mul_of_nonneg_right this hu.le
        linarith
      rw [pow_succ]
      have h3 := mul_le_mul_of_nonneg_right h1 (by linarith : 0 ≤ 1 + unitRoundoff)
      have h4 := mul_le_mul_of_nonneg_right h2 hu.le
      push_cast
      linarith
  have hp := hpow n le_rfl
  constructor
  · unfold slop
    have h1 : ((1 + unitRoundoff) ^ n - 1) * a ≤ 2 * n * unitRoundoff * a := mul_le_mul_of_nonneg_right (by linarith) ha
    have h2 : (m : ℝ) * (1 + unitRoundoff) ^ n * underflow ≤ 2 * m * underflow := by
      have : (1 + unitRoundoff) ^ n ≤ 2 := by linarith
      have := mul_le_mul_of_nonneg_left this (Nat.cast_nonneg m : (0 : ℝ) ≤ m)
      have := mul_le_mul_of_nonneg_right this hη.le
      linarith
    linarith
  · intro hsm
    have hn0 : (0 : ℝ) ≤ n := Nat.cast_nonneg n
    have hb : 1 - n * unitRoundoff ≤ (1 - unitRoundoff) ^ n := by
      have := one_add_mul_le_pow (a := -unitRoundoff) (by linarith [unit_lt]) n
      have e : 1 + (n : ℝ) * -unitRoundoff = 1 - n * unitRoundoff := by ring
      rw [e] at this
      rw [sub_eq_add_neg 1 unitRoundoff]
      exact this
    have hq : 0 < 1 - n * unitRoundoff := by linarith
    have hnn : (0 : ℝ) ≤ (n + 1) * unitRoundoff := by positivity
    have hle : (t ^ 2 + n * underflow) / (1 - unitRoundoff) ^ n ≤ ((1 + (n + 1) * unitRoundoff) * t) ^ 2 := by
      rw [div_le_iff₀ (hq.trans_le hb)]
      have h1 : t ^ 2 + n * underflow ≤ (1 + unitRoundoff) * t ^ 2 := by linarith
      have h2 : 1 + unitRoundoff ≤ (1 + (n + 1) * unitRoundoff) ^ 2 * (1 - n * unitRoundoff) := by
        generalize unitRoundoff = u at *
        have h3 : 1 + 2 * ((n + 1) * u) ≤ (1 + (n + 1) * u) ^ 2 := by nlinarith only [sq_nonneg ((n + 1 : ℝ) * u)]
        have h4 := mul_le_mul_of_nonneg_right h3 hq.le
        have h5 : 2 * (n : ℝ) * u * ((n + 1) * u) ≤ 1 * ((n + 1) * u) := mul_le_mul_of_nonneg_right hnu hnn
        linarith
      have h3 := mul_le_mul_of_nonneg_right h2 (sq_nonneg t)
      have h4 := mul_le_mul_of_nonneg_left hb (sq_nonneg ((1 + (n + 1) * unitRoundoff) * t))
      rw [mul_pow] at h4 ⊢
      linarith
    unfold inflated
    refine (Real.sqrt_le_sqrt hle).trans ?_
    rw [Real.sqrt_sq (mul_nonneg (by linarith) ht)]

/-! ### A run -/

theorem seqL_addsUp : AddsUp DemoF64.seqL := by
  intro l
  have key : ∀ (l l0 : List F64) (x : F64), AddedUp l0 x → AddedUp (l0 ++ l) (l.foldl F64.add x) := by
    intro l
    induction l with
    | nil => intro l0 x h; simpa using h
    | cons a l ih =>
      intro l0 x h
      have := ih (l0 ++ [a]) (F64.add x a) (.add h (.one a) (List.Perm.refl _))
      simpa using this
  exact key l [] _ .none

/-- Non-vacuity: a run in binary64 (`½x² - x` subject to `x ≥ 2`) that meets every hypothesis. -/
theorem C102_demo : ∃ r, solve DemoF64.inv1 DemoF64.qp1 (DemoF64.qpPrm 10 .complementarity)
      (setupState (DemoF64.zero1 1)) = .ok r ∧ r.2.termination = .satisfiedKktTol ∧
    Dbl.Finite (DemoF64.qpPrm 10 .complementarity).terminationKktTol ∧
    Dbl.Finite (DemoF64.qpPrm 10 .complementarity).terminationComplementarityTol ∧
    (∀ it, r.2.iterations.getLast? = some it → it.kktFinal.rPrimalEq ≠ F64.nan ∧ it.kktFinal.rPrimalIneq ≠ F64.nan) ∧
    (∀ m, 0 ≤ r.1.v.s m) ∧ (∀ m, 0 ≤ r.1.v.z m) ∧ PSDG (realQP DemoF64.qp1) ∧
    Feasible (realQP DemoF64.qp1) (fun _ => 2) := by
  have h : (match solve DemoF64.inv1 DemoF64.qp1 (DemoF64.qpPrm 10 .complementarity) (setupState (DemoF64.zero1 1)) with
    | .ok (st', out) => decide (out.termination = .satisfiedKktTol ∧
        (out.iterations.getLast?.all fun it => decide (it.kktFinal.rPrimalEq ≠ F64.nan ∧ it.kktFinal.rPrimalIneq ≠ F64.nan))
          = true ∧
        (∀ m, 0 ≤ st'.v.s m) ∧ ∀ m, 0 ≤ st'.v.z m)
    | .error _ => false) = true := by decide +kernel
  split at h
  · rename_i st' out hs
    obtain ⟨h1, h2, h3, h4⟩ := of_decide_eq_true h
    refine ⟨(st', out), hs, h1, by decide +kernel, by decide +kernel, ?_, h3, h4, ?_, ?_⟩
    · intro it hit
      change out.iterations.getLast? = some it at hit
      rw [hit] at h2
      simp only [Option.all_some, decide_eq_true_eq] at h2
      exact ⟨fun e => h2.1 e, fun e => h2.2 e⟩
    · intro x
      have e : Gsym (realQP DemoF64.qp1) 0 0 = 1 := by
        show realVal (1 : DemoF64.D64) = 1
        have : (1 : DemoF64.D64).toRat = 1 := by decide +kernel
        unfold realVal; rw [this]; simp
      simp only [Fin.sum_univ_one, Fin.isValue, e]
      nlinarith [sq_nonneg (x 0)]
    · refine ⟨fun m => ?_, fun k => k.elim0⟩
      have e1 : realVal (1 : DemoF64.D64) = 1 := by
        have : (1 : DemoF64.D64).toRat = 1 := by decide +kernel
        unfold realVal; rw [this]; simp
      have e2 : realVal (-DemoF64.d 2 : DemoF64.D64) = -2 := by
        have : (-DemoF64.d 2 : DemoF64.D64).toRat = -2 := by decide +kernel
        unfold realVal; rw [this]; simp
      show 0 ≤ realVal (1 : DemoF64.D64) * 2 + realVal (-DemoF64.d 2 : DemoF64.D64)
      rw [e1, e2]; norm_num
  · cases h

/-! ### The complementarity norm -/

/-- **C17** (limit of the claim in binary64, finding). The expanded square cancels: with one constraint, `s z = 1 + 2^-27` and
barrier parameter 1 the logged complementarity norm is exactly 0, although `s z - mu` is `2^-27`, seven times the default
tolerance. -/
theorem C17_double_cancellation : ∃ (st : IPState 1 1 0 DemoF64.D64) (mu : DemoF64.D64),
    (computeErrors mu st).rComp = 0 ∧ (st.r.s 0 - mu).toRat = 1 / 2 ^ 27 ∧
    7 * (QPParams.default : QPParams DemoF64.D64).terminationKktTol.toRat < (st.r.s 0 - mu).toRat :=
  ⟨{ DemoF64.zero1 1 with r := ⟨fun _ => 0, fun _ => DemoF64.d (1 + 1 / 2 ^ 27), fun _ => 0, fun _ => 0⟩ }, 1,
    by decide +kernel, by decide +kernel, by decide +kernel⟩

end MiniOpt.Props
