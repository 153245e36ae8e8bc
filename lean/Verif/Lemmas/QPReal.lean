import Verif.Spec.QPSpec

/-! Closed forms (exact arithmetic) of the loops of the interior point solver. -/

set_option autoImplicit false

namespace MiniOpt.IP

open MiniOpt MiniOpt.Spec

variable {N M K : Nat}

theorem symLower_eq (p : QP N M K ℝ) (i j : Fin N) : symLower p.G i j = Gsym p i j := by
  unfold symLower Gsym
  split_ifs with h
  · rw [max_eq_left h, min_eq_right h]
  · rw [max_eq_right (not_le.mp h).le, min_eq_left (not_le.mp h).le]

theorem Gsym_comm (p : QP N M K ℝ) (i j : Fin N) : Gsym p i j = Gsym p j i := by
  unfold Gsym; rw [max_comm, min_comm]

/-- Second-order expansion of the objective (exact: it is quadratic). -/
theorem objective_expand (p : QP N M K ℝ) (x x' : Fin N → ℝ) :
    objective p x' = objective p x
      + (∑ i, ((∑ j, Gsym p i j * x j) + p.c i) * (x' i - x i))
      + (1 / 2) * ∑ i, ∑ j, (x' - x) i * Gsym p i j * (x' - x) j := by
  unfold objective
  have hsym : ∑ i, ∑ j, x' i * Gsym p i j * x j = ∑ i, ∑ j, x i * Gsym p i j * x' j := by
    rw [Finset.sum_comm]
    exact Finset.sum_congr rfl fun i _ => Finset.sum_congr rfl fun j _ => by rw [Gsym_comm]; ring
  have e1 : ∑ i, ∑ j, (x' - x) i * Gsym p i j * (x' - x) j
      = (∑ i, ∑ j, x' i * Gsym p i j * x' j) - (∑ i, ∑ j, x' i * Gsym p i j * x j)
        - (∑ i, ∑ j, x i * Gsym p i j * x' j) + ∑ i, ∑ j, x i * Gsym p i j * x j := by
    simp only [← Finset.sum_sub_distrib, ← Finset.sum_add_distrib, Pi.sub_apply]
    exact Finset.sum_congr rfl fun i _ => Finset.sum_congr rfl fun j _ => by ring
  have e2 : ∑ i, ((∑ j, Gsym p i j * x j) + p.c i) * (x' i - x i)
      = (∑ i, ∑ j, x' i * Gsym p i j * x j) - (∑ i, ∑ j, x i * Gsym p i j * x j)
        + (∑ i, p.c i * x' i) - ∑ i, p.c i * x i := by
    simp only [← Finset.sum_sub_distrib, ← Finset.sum_add_distrib]
    refine Finset.sum_congr rfl fun i _ => ?_
    have a1 : ∑ j, (x' i * Gsym p i j * x j - x i * Gsym p i j * x j)
        = (x' i - x i) * ∑ j, Gsym p i j * x j := by
      rw [Finset.mul_sum]
      exact Finset.sum_congr rfl fun j _ => by ring
    rw [a1]; ring
  rw [e1, e2, hsym]; ring

/-- A loop `r[v_i] += w_i` adds the weights of the matching indices. -/
theorem foldl_update_add {n : Nat} {ι : Type} (l : List ι) (v : ι → Fin n) (w : ι → ℝ) (f : Fin n → ℝ)
    (j : Fin n) :
    l.foldl (fun r i => Function.update r (v i) (r (v i) + w i)) f j
      = f j + (l.map fun i => if v i = j then w i else 0).sum := by
  induction l generalizing f with
  | nil => simp
  | cons a l ih =>
    rw [List.foldl_cons, ih, List.map_cons, List.sum_cons]
    by_cases h : v a = j
    · subst h; simp; ring
    · rw [Function.update_of_ne (Ne.symm h)]; simp [h]

theorem sum_map_finRange {M : Nat} (f : Fin M → ℝ) : ((List.finRange M).map f).sum = ∑ i, f i := by
  rw [← List.ofFn_eq_map, List.sum_ofFn]

theorem evaluateKKT_v (p : QP N M K ℝ) (b : Bool) (st : IPState N M K ℝ) :
    (evaluateKKT p b st).v = st.v := by
  unfold evaluateKKT; cases b <;> rfl

theorem evaluateKKT_H (p : QP N M K ℝ) (b : Bool) (st : IPState N M K ℝ) :
    (evaluateKKT p b st).H = st.H := by
  unfold evaluateKKT; cases b <;> rfl

theorem rd1_eq (p : QP N M K ℝ) (x : Fin N → ℝ) (y : Fin K → ℝ) (i : Fin N) :
    (if 0 < K then fun i => (matVec (symLower p.G) x i + p.c i) - matTVec p.A y i
      else fun i => matVec (symLower p.G) x i + p.c i : Fin N → ℝ) i
      = (∑ j, Gsym p i j * x j) + p.c i - ∑ k, p.A k i * y k := by
  have hG : matVec (symLower p.G) x i = ∑ j, Gsym p i j * x j := by
    rw [real_matVec]; simp_rw [symLower_eq]
  split_ifs with h
  · show matVec (symLower p.G) x i + p.c i - matTVec p.A y i = _
    rw [hG, real_matTVec]
  · show matVec (symLower p.G) x i + p.c i = _
    rw [hG]
    obtain rfl : K = 0 := by omega
    simp

theorem evaluateKKT_rx (p : QP N M K ℝ) (st : IPState N M K ℝ) (i : Fin N) :
    (evaluateKKT p true st).r.x i = gradLagrangian p st.v i := by
  have : (evaluateKKT p true st).r.x i = (List.finRange M).foldl (fun rd m =>
      Function.update rd (p.con m).var (rd (p.con m).var + -((p.con m).a * st.v.z m)))
      (if 0 < K then fun i => (matVec (symLower p.G) st.v.x i + p.c i) - matTVec p.A st.v.y i
      else fun i => matVec (symLower p.G) st.v.x i + p.c i) i := by
    unfold evaluateKKT
    simp only [if_true, sub_eq_add_neg]
  rw [this, foldl_update_add, sum_map_finRange, rd1_eq]
  unfold gradLagrangian
  rw [sub_eq_add_neg _ (∑ m, if (p.con m).var = i then (p.con m).a * st.v.z m else 0),
    ← Finset.sum_neg_distrib]
  congr 1
  apply Finset.sum_congr rfl
  intro m _
  split_ifs <;> simp

theorem evaluateKKT_rs (p : QP N M K ℝ) (st : IPState N M K ℝ) (i : Fin M) :
    (evaluateKKT p true st).r.s i = st.v.s i * st.v.z i := rfl

theorem evaluateKKT_rz (p : QP N M K ℝ) (st : IPState N M K ℝ) (i : Fin M) :
    (evaluateKKT p true st).r.z i = ineqVal p st.v.x i - st.v.s i := rfl

theorem evaluateKKT_ry (p : QP N M K ℝ) (b : Bool) (st : IPState N M K ℝ) (k : Fin K) :
    (evaluateKKT p b st).r.y k = eqVal p st.v.x k := by
  have hK : 0 < K := k.pos
  unfold evaluateKKT
  cases b <;> simp [hK, real_matVec, eqVal]

theorem evaluateKKT_false_rx (p : QP N M K ℝ) (st : IPState N M K ℝ) (i : Fin N) :
    (evaluateKKT p false st).r.x i
      = (∑ j, Gsym p i j * st.v.x j) + p.c i - ∑ k, p.A k i * st.v.y k := by
  rw [← rd1_eq]; rfl

/-- Closed form of the matrix handed to LDLT. -/
theorem fillH_inl_inl (p : QP N M K ℝ) (st : IPState N M K ℝ) (i j : Fin N) :
    fillH p true st (.inl i) (.inl j) =
      (if j ≤ i then p.G i j else st.H (.inl i) (.inl j)) +
        if i = j then ∑ m, (if (p.con m).var = i then
          (p.con m).a * (st.v.z m / st.v.s m) * (p.con m).a else 0) else 0 := by
  have key : ∀ (l : List (Fin M)) (H0 : Red N K → Red N K → ℝ),
      (l.foldl (fun (H : Red N K → Red N K → ℝ) i => Function.update H (.inl (p.con i).var)
        (Function.update (H (.inl (p.con i).var)) (.inl (p.con i).var)
          (H (.inl (p.con i).var) (.inl (p.con i).var) +
            (p.con i).a * (st.v.z i / st.v.s i) * (p.con i).a))) H0) (.inl i) (.inl j)
      = H0 (.inl i) (.inl j) + if i = j then (l.map fun m => if (p.con m).var = i then
          (p.con m).a * (st.v.z m / st.v.s m) * (p.con m).a else 0).sum else 0 := by
    intro l
    induction l with
    | nil => intro H0; simp
    | cons a l ih =>
      intro H0
      rw [List.foldl_cons, ih, List.map_cons, List.sum_cons]
      by_cases h : (p.con a).var = i
      · subst h
        rw [Function.update_self]
        by_cases hij : (p.con a).var = j
        · subst hij; simp; ring
        · rw [Function.update_of_ne (by simpa using Ne.symm hij)]; simp [hij]
      · rw [Function.update_of_ne (by simpa using Ne.symm h)]; simp [h]
  unfold fillH
  simp only [if_true]
  rw [key, sum_map_finRange]

theorem fillH_other (p : QP N M K ℝ) (st : IPState N M K ℝ) (k : Fin K) (c : Red N K) :
    fillH p true st (.inr k) c =
      match c with
      | .inl j => p.A k j
      | .inr l => st.H (.inr k) (.inr l) := by
  have hK : 0 < K := k.pos
  have key : ∀ (l : List (Fin M)) (H0 : Red N K → Red N K → ℝ),
      (l.foldl (fun (H : Red N K → Red N K → ℝ) i => Function.update H (.inl (p.con i).var)
        (Function.update (H (.inl (p.con i).var)) (.inl (p.con i).var)
          (H (.inl (p.con i).var) (.inl (p.con i).var) +
            (p.con i).a * (st.v.z i / st.v.s i) * (p.con i).a))) H0) (.inr k) c
      = H0 (.inr k) c := by
    intro l
    induction l with
    | nil => intro H0; rfl
    | cons a l ih =>
      intro H0
      rw [List.foldl_cons, ih, Function.update_of_ne (by simp)]
  unfold fillH
  simp only [if_true]
  rw [key]
  cases c <;> simp [hK]

/-- The bottom-right block of `H_` is zero (established by `Setup`, never written). -/
def WF {α : Type} [Scalar α] (st : IPState N M K α) : Prop := ∀ k l : Fin K, st.H (.inr k) (.inr l) = 0

theorem symRed_fillH (p : QP N M K ℝ) (st : IPState N M K ℝ) (hwf : WF st) :
    symRed (fillH p true st) = reducedMatrix p st.v := by
  funext r c
  rcases r with i | k <;> rcases c with j | l
  · unfold symRed reducedMatrix
    simp only [fillH_inl_inl]
    by_cases h : j ≤ i
    · simp only [h, if_true]
      congr 1
      rw [← symLower_eq, symLower, if_pos h]
    · have h' : i ≤ j := (not_le.mp h).le
      have hne : i ≠ j := by rintro rfl; exact h le_rfl
      have hne' : j ≠ i := Ne.symm hne
      simp only [h, if_false, h', if_true, hne, hne']
      rw [← symLower_eq, symLower, if_neg h]
  · simp [symRed, reducedMatrix, fillH_other]
  · simp [symRed, reducedMatrix, fillH_other]
  · have := hwf l k
    have := hwf k l
    simp [symRed, reducedMatrix, fillH_other, *]

theorem symRed_fillH_false (p : QP N M K ℝ) (st : IPState N M K ℝ) (hwf : WF st) :
    symRed (fillH p false st) = kktMatrix p := by
  funext r c
  rcases r with i | k <;> rcases c with j | l
  · unfold symRed kktMatrix fillH
    simp only [Bool.false_eq_true, if_false]
    rw [← symLower_eq, symLower]
    split_ifs with h h2
    · rfl
    · rfl
    · exact absurd (not_le.mp h).le h2
  · have hK : 0 < K := l.pos
    simp [symRed, kktMatrix, fillH, hK]
  · have hK : 0 < K := k.pos
    simp [symRed, kktMatrix, fillH, hK]
  · have := hwf l k
    have := hwf k l
    simp [symRed, kktMatrix, fillH, *]

theorem reducedMatrix_symm (p : QP N M K ℝ) (v : Blocks N M K ℝ) (r c : Red N K) :
    reducedMatrix p v r c = reducedMatrix p v c r := by
  rcases r with i | k <;> rcases c with j | l <;> simp only [reducedMatrix]
  rw [Gsym_comm]
  by_cases h : i = j
  · subst h; rfl
  · simp [h, Ne.symm h]

theorem kktMatrix_symm (p : QP N M K ℝ) (r c : Red N K) : kktMatrix p r c = kktMatrix p c r := by
  rcases r with i | k <;> rcases c with j | l <;> simp only [kktMatrix]
  rw [Gsym_comm]

theorem dualAug_eq (p : QP N M K ℝ) (mu : ℝ) (st : IPState N M K ℝ) (i : Fin N) :
    dualAug p mu st i = st.r.x i + ∑ m, (if (p.con m).var = i then
      (p.con m).a * (st.v.z m / st.v.s m) * st.r.z m +
        (p.con m).a * (st.r.s m + st.deltaAff.s m * st.deltaAff.z m - mu) / st.v.s m else 0) := by
  have : dualAug p mu st i = (List.finRange M).foldl (fun r m =>
      Function.update r (p.con m).var (r (p.con m).var +
        ((p.con m).a * (st.v.z m / st.v.s m) * st.r.z m +
        (p.con m).a * (st.r.s m + st.deltaAff.s m * st.deltaAff.z m - mu) / st.v.s m))) st.r.x i := by
    unfold dualAug
    apply congrFun (congrFun (congrFun (congrArg List.foldl ?_) _) _)
    funext r m
    simp only [Function.update_self, Function.update_idem, add_assoc]
  rw [this, foldl_update_add, sum_map_finRange]

/-- The pair `(dx, -dy)` is minus `Hinv` applied to the right-hand side. -/
theorem applyInv_eq (st : IPState N M K ℝ) (rx : Fin N → ℝ) :
    (Sum.elim (applyInvX st rx) (fun k => - applyInvY st rx k) : Red N K → ℝ)
      = (Matrix.of st.Hinv).mulVec (fun c => - (Sum.elim rx st.r.y c)) := by
  funext r
  rw [Matrix.mulVec, dotProduct, Fintype.sum_sum_type]
  simp only [Matrix.of_apply, Sum.elim_inl, Sum.elim_inr]
  rcases r with i | k
  · simp only [Sum.elim_inl]
    unfold applyInvX
    split_ifs with hK
    · simp only [real_dot]
    · obtain rfl : K = 0 := by omega
      simp only [real_dot]; simp
  · have hK : 0 < K := k.pos
    simp only [Sum.elim_inr]
    unfold applyInvY
    rw [if_pos hK]
    simp only [real_dot, neg_add, ← Finset.sum_neg_distrib, mul_neg]

/-- If `H * Hinv = 1` then `(dx, dy)` solves the reduced system. -/
theorem applyInv_solves (st : IPState N M K ℝ) (rx : Fin N → ℝ) (H : Matrix (Red N K) (Red N K) ℝ)
    (hH : H * Matrix.of st.Hinv = 1) (r : Red N K) :
    (∑ j, H r (.inl j) * applyInvX st rx j) - ∑ k, H r (.inr k) * applyInvY st rx k
      = - Sum.elim rx st.r.y r := by
  have h := congrArg (fun v => H.mulVec v r) (applyInv_eq st rx)
  simp only [Matrix.mulVec_mulVec, hH, Matrix.one_mulVec] at h
  rw [← h, Matrix.mulVec, dotProduct, Fintype.sum_sum_type]
  simp [sub_eq_add_neg, Finset.sum_neg_distrib]

end MiniOpt.IP
