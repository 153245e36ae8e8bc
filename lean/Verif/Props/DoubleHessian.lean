import Verif.Spec.RoundOffLinSpec
import Verif.Lemmas.HessEntries
import Verif.Props.DoubleCost

/-!
# C104: the linearised problem in doubles
-/

set_option autoImplicit false

namespace MiniOpt.Props

open MiniOpt MiniOpt.Spec MiniOpt.NLS MiniOpt.F64

variable {L : Libm} {n D : Nat}

theorem fullJac_col {d P : Nat} {index : Fin P → Int} (hd : Function.Injective index) (J : Fin d → Fin P → ℝ) (k : Fin d)
    (i : Fin D) (a : Fin P) (ha : index a = (i.val : Int)) : fullJac index J D k i = J k a := by
  unfold fullJac
  rw [Finset.sum_eq_single a, if_pos ha]
  · intro l _ hl
    rw [if_neg]
    intro h
    exact hl (hd (h.trans ha.symm))
  · intro h; exact absurd (Finset.mem_univ a) h

theorem fullJac_none {d P : Nat} {index : Fin P → Int} (J : Fin d → Fin P → ℝ) (k : Fin d) (i : Fin D)
    (h : ∀ a, index a ≠ (i.val : Int)) : fullJac index J D k i = 0 := by
  unfold fullJac
  exact Finset.sum_eq_zero fun l _ => if_neg (h l)

/-- One entry of the Hessian. -/
theorem near_hess (hL : AddsUp L) (r : Residual (Dbl L)) (x : Fin n → Dbl L) (hD : IdxIn r D) (hd : Distinct r)
    (H : Fin D → Fin D → Dbl L) (i j : Fin D) (hij : j ≤ i)
    (hf : IsFin ((localPairs r.P).foldl (fun H q => Residual.addLower H (idxFin r hD q.1) (idxFin r hD q.2)
      (dot (Residual.col (r.jac (params r x)) q.1) (Residual.col (r.jac (params r x)) q.2))) H i j)) :
    IsFin (H i j) ∧ ∀ (v a : ℝ) (k m : Nat), Near (H i j) v a k m →
      Near ((localPairs r.P).foldl (fun H q => Residual.addLower H (idxFin r hD q.1) (idxFin r hD q.2)
        (dot (Residual.col (r.jac (params r x)) q.1) (Residual.col (r.jac (params r x)) q.2))) H i j)
        (v + ∑ k, exactJac r x D k i * exactJac r x D k j) (a + ∑ k, |exactJac r x D k i * exactJac r x D k j|)
        (max k r.dim + 1) (m + r.dim) := by
  by_cases hi : ∃ a, r.index a = (i.val : Int)
  · by_cases hj : ∃ c, r.index c = (j.val : Int)
    · obtain ⟨a, ha⟩ := hi
      obtain ⟨c, hc⟩ := hj
      have key : ∀ a' c' : Fin r.P, c' ≤ a' → max (idxFin r hD a') (idxFin r hD c') = i →
          min (idxFin r hD a') (idxFin r hD c') = j →
          (∀ k, realVal (r.jac (params r x) k a') * realVal (r.jac (params r x) k c')
            = exactJac r x D k i * exactJac r x D k j) →
          IsFin (H i j) ∧ ∀ (v a : ℝ) (k m : Nat), Near (H i j) v a k m →
          Near ((localPairs r.P).foldl (fun H q => Residual.addLower H (idxFin r hD q.1) (idxFin r hD q.2)
            (dot (Residual.col (r.jac (params r x)) q.1) (Residual.col (r.jac (params r x)) q.2))) H i j)
            (v + ∑ k, exactJac r x D k i * exactJac r x D k j) (a + ∑ k, |exactJac r x D k i * exactJac r x D k j|)
            (max k r.dim + 1) (m + r.dim) := by
        intro a' c' hle h1 h2 he
        have hh := hess_here r hD hd (r.jac (params r x)) H a' c' hle
        rw [h1, h2] at hh
        rw [hh] at hf ⊢
        have hadd : Fin' (F64.add (H i j)
          (dot (Residual.col (r.jac (params r x)) a') (Residual.col (r.jac (params r x)) c') : Dbl L)) := hf
        obtain ⟨f1, f2⟩ := add_finite hadd
        have hdot := (near_dot hL _ _ f2).1
        simp only [Residual.col, he] at hdot
        exact ⟨f1, fun v a k m hn => Approx.add hn hdot hadd⟩
      have hia := (idxFin_eq_iff r hD a i).mpr ha
      have hjc := (idxFin_eq_iff r hD c j).mpr hc
      have e1 : ∀ k, exactJac r x D k i = realVal (r.jac (params r x) k a) := fun k => fullJac_col hd _ k i a ha
      have e2 : ∀ k, exactJac r x D k j = realVal (r.jac (params r x) k c) := fun k => fullJac_col hd _ k j c hc
      rcases le_total c a with o | o
      · exact key a c o (by rw [hia, hjc, max_eq_left hij]) (by rw [hia, hjc, min_eq_right hij])
          (fun k => by rw [e1, e2])
      · exact key c a o (by rw [hia, hjc, max_eq_right hij]) (by rw [hia, hjc, min_eq_left hij])
          (fun k => by rw [e1, e2, _root_.mul_comm])
    · have hz : ∀ k, exactJac r x D k j = 0 := fun k => fullJac_none _ k j fun a h => hj ⟨a, h⟩
      rw [hess_other r hD _ H i j (by
        rintro a c ⟨-, h2⟩
        rcases le_total (idxFin r hD a) (idxFin r hD c) with o | o
        · rw [min_eq_left o] at h2; exact hj ⟨a, (idxFin_eq_iff r hD a j).mp h2.symm⟩
        · rw [min_eq_right o] at h2; exact hj ⟨c, (idxFin_eq_iff r hD c j).mp h2.symm⟩)] at hf ⊢
      refine ⟨hf, fun v a k m hn => ?_⟩
      simp only [hz, mul_zero, abs_zero, Finset.sum_const_zero, add_zero]
      exact hn.weaken (by omega) (by omega)
  · have hz : ∀ k, exactJac r x D k i = 0 := fun k => fullJac_none _ k i fun a h => hi ⟨a, h⟩
    rw [hess_other r hD _ H i j (by
      rintro a c ⟨h1, -⟩
      rcases le_total (idxFin r hD a) (idxFin r hD c) with o | o
      · rw [max_eq_right o] at h1; exact hi ⟨c, (idxFin_eq_iff r hD c i).mp h1.symm⟩
      · rw [max_eq_left o] at h1; exact hi ⟨a, (idxFin_eq_iff r hD a i).mp h1.symm⟩)] at hf ⊢
    refine ⟨hf, fun v a k m hn => ?_⟩
    simp only [hz, zero_mul, abs_zero, Finset.sum_const_zero, add_zero]
    exact hn.weaken (by omega) (by omega)

/-- One component of the gradient. -/
theorem near_grad (hL : AddsUp L) (r : Residual (Dbl L)) (x : Fin n → Dbl L) (hD : IdxIn r D) (hd : Distinct r)
    (b : Fin D → Dbl L) (w : Fin r.dim → Dbl L) (i : Fin D)
    (hf : IsFin ((List.finRange r.P).foldl (fun b row => Function.update b (idxFin r hD row)
          (b (idxFin r hD row) + dot (Residual.col (r.jac (params r x)) row) w)) b i)) :
    IsFin (b i) ∧ ∀ (v a : ℝ) (k m : Nat), Near (b i) v a k m →
      Near ((List.finRange r.P).foldl (fun b row => Function.update b (idxFin r hD row)
          (b (idxFin r hD row) + dot (Residual.col (r.jac (params r x)) row) w)) b i)
        (v + ∑ k, exactJac r x D k i * realVal (w k)) (a + ∑ k, |exactJac r x D k i * realVal (w k)|)
        (max k r.dim + 1) (m + r.dim) := by
  by_cases hi : ∃ a, r.index a = (i.val : Int)
  · obtain ⟨a, ha⟩ := hi
    have hia := (idxFin_eq_iff r hD a i).mpr ha
    have e1 : ∀ k, exactJac r x D k i = realVal (r.jac (params r x) k a) := fun k => fullJac_col hd _ k i a ha
    have hh := grad_here r hD hd (fun row => dot (Residual.col (r.jac (params r x)) row) w) a (List.finRange r.P) b
      (List.nodup_finRange _)
    rw [if_pos (List.mem_finRange a), hia] at hh
    rw [hh] at hf ⊢
    have hadd : Fin' (F64.add (b i) (dot (Residual.col (r.jac (params r x)) a) w : Dbl L)) := hf
    obtain ⟨f1, f2⟩ := add_finite hadd
    have hdot := (near_dot hL _ _ f2).1
    simp only [Residual.col, ← e1] at hdot
    exact ⟨f1, fun v a k m hn => Approx.add hn hdot hadd⟩
  · have hz : ∀ k, exactJac r x D k i = 0 := fun k => fullJac_none _ k i fun a h => hi ⟨a, h⟩
    have hh := grad_other r hD (fun row => dot (Residual.col (r.jac (params r x)) row) w) i
      (fun a h => hi ⟨a, (idxFin_eq_iff r hD a i).mp h⟩) (List.finRange r.P) b
    rw [hh] at hf ⊢
    refine ⟨hf, fun v a k m hn => ?_⟩
    simp only [hz, zero_mul, abs_zero, Finset.sum_const_zero, add_zero]
    exact hn.weaken (by omega) (by omega)

/-- **C104**, `UpdateHessian`. Adding the contribution of one residual to finite doubles: each finite entry on or below the
diagonal is the exact entry of `H + JᵀJ` up to the rounding errors of `dim` products and additions, the entries above the
diagonal are left alone, each finite component of the gradient is that of `b + Jᵀr`, and the returned value that of `½‖r‖²`. -/
theorem C104_update_hessian (hL : AddsUp L) (r : Residual (Dbl L)) (x : Fin n → Dbl L) (hn : IdxIn r n) (hD : IdxIn r D)
    (hd : Distinct r) (H H' : Fin D → Fin D → Dbl L) (b b' : Fin D → Dbl L) (f : Dbl L)
    (h : r.updateHessian x H b = .ok (H', b', f)) :
    (∀ i j, j ≤ i → Dbl.Finite (H' i j) → Dbl.Finite (H i j) ∧
      |realVal (H' i j) - (realVal (H i j) + ∑ k, exactJac r x D k i * exactJac r x D k j)|
        ≤ slop (r.dim + 1) r.dim (|realVal (H i j)| + ∑ k, |exactJac r x D k i * exactJac r x D k j|)) ∧
    (∀ i j, i < j → H' i j = H i j) ∧
    (∀ i, Dbl.Finite (b' i) → Dbl.Finite (b i) ∧
      |realVal (b' i) - (realVal (b i) + ∑ k, exactJac r x D k i * realVal (r.valueJ (params r x) k))|
        ≤ slop (r.dim + 1) r.dim (|realVal (b i)| + ∑ k, |exactJac r x D k i * realVal (r.valueJ (params r x) k)|)) ∧
    (Dbl.Finite f → |realVal f - 1 / 2 * ∑ k, realVal (r.valueJ (params r x) k) ^ 2|
        ≤ slop (r.dim + 1) (r.dim + 1) (1 / 2 * ∑ k, realVal (r.valueJ (params r x) k) ^ 2)) := by
  obtain ⟨e1, e2, e3⟩ := updateHessian_form hn hD h
  refine ⟨?_, ?_, ?_, ?_⟩
  · intro i j hij hf
    rw [e1] at hf ⊢
    obtain ⟨f1, f2⟩ := near_hess hL r x hD hd H i j hij hf
    refine ⟨f1, ?_⟩
    have := (f2 _ _ _ _ (Approx.exact f1)).err
    rw [Nat.zero_max, Nat.zero_add, ← realVal_eq, ← realVal_eq] at this
    exact this
  · intro i j hij
    rw [e1, hess_other]
    rintro a c ⟨h1, h2⟩
    have := min_le_max (a := idxFin r hD a) (b := idxFin r hD c)
    rw [← h1, ← h2] at this
    exact absurd hij (not_lt.mpr this)
  · intro i hf
    rw [e2] at hf ⊢
    obtain ⟨f1, f2⟩ := near_grad hL r x hD hd b _ i hf
    refine ⟨f1, ?_⟩
    have := (f2 _ _ _ _ (Approx.exact f1)).err
    rw [Nat.zero_max, Nat.zero_add, ← realVal_eq, ← realVal_eq] at this
    exact this
  · intro hf
    rw [e3] at hf ⊢
    have hmul : Fin' (F64.mul (Residual.half : Dbl L) (squaredNorm (r.valueJ (params r x)) : Dbl L)) := hf
    obtain ⟨d1, -⟩ := near_dot hL _ _ (mul_finite hmul).2
    have hhalf : fval (Residual.half : Dbl L) = 1 / 2 := half_val
    have hs := (Approx.scale d1 hmul (Or.inl (hhalf ▸ (by norm_num : |(1 / 2 : ℝ)| ≤ 1)))).err
    rw [hhalf, abs_of_pos (by norm_num : (0 : ℝ) < 1 / 2)] at hs
    have q1 : ∑ k, realVal (r.valueJ (params r x) k) * realVal (r.valueJ (params r x) k)
        = ∑ k, realVal (r.valueJ (params r x) k) ^ 2 := Finset.sum_congr rfl fun i _ => by ring
    have q2 : ∑ k, |realVal (r.valueJ (params r x) k) * realVal (r.valueJ (params r x) k)|
        = ∑ k, realVal (r.valueJ (params r x) k) ^ 2 := Finset.sum_congr rfl fun i _ => by rw [abs_mul_self]; ring
    rw [q1, q2] at hs
    rw [realVal_eq]
    exact hs

/-- The cost loop. -/
theorem near_linCosts (hL : AddsUp L) (x : Fin n → Dbl L) : ∀ (l : List (Residual (Dbl L))),
    (∀ r ∈ l, IdxIn r n ∧ IdxIn r D ∧ Distinct r ∧ Consistent r) →
    ∀ (G G' : Fin D → Fin D → Dbl L) (c c' : Fin D → Dbl L) (f f' : Dbl L), linCosts x l G c f = .ok (G', c', f') →
    (∀ i j, j ≤ i → IsFin (G' i j) → IsFin (G i j) ∧ ∀ (v a : ℝ) (k m : Nat), Near (G i j) v a k m →
      Near (G' i j) (v + (l.map fun r => ∑ k, exactJac r x D k i * exactJac r x D k j).sum)
        (a + (l.map fun r => ∑ k, |exactJac r x D k i * exactJac r x D k j|).sum)
        (k + (l.map fun r => r.dim + 1).sum) (m + (l.map fun r => r.dim + 1).sum)) ∧
    (∀ i j, i < j → G' i j = G i j) ∧
    (∀ i, IsFin (c' i) → IsFin (c i) ∧ ∀ (v a : ℝ) (k m : Nat), Near (c i) v a k m →
      Near (c' i) (v + (l.map fun r => ∑ k, exactJac r x D k i * realVal (valueAt r x k)).sum)
        (a + (l.map fun r => ∑ k, |exactJac r x D k i * realVal (valueAt r x k)|).sum)
        (k + (l.map fun r => r.dim + 1).sum) (m + (l.map fun r => r.dim + 1).sum)) := by
  intro l
  induction l with
  | nil =>
    intro _ G G' c c' f f' h
    simp only [linCosts] at h
    cases h
    refine ⟨fun i j _ hf => ⟨hf, fun v a k m hn => by simpa using hn⟩, fun _ _ _ => rfl,
      fun i hf => ⟨hf, fun v a k m hn => by simpa using hn⟩⟩
  | cons r l ih =>
    intro hl G G' c c' f f' h
    obtain ⟨i1, i2, i3, i4⟩ := hl r (by simp)
    simp only [linCosts] at h
    split at h
    · cases h
    · rename_i G1 c1 e he
      obtain ⟨h1, h2, h3⟩ := ih (fun r hr => hl r (by simp [hr])) _ _ _ _ _ _ h
      obtain ⟨e1, e2, -⟩ := updateHessian_form i1 i2 he
      have hup := (C104_update_hessian hL r x i1 i2 i3 G G1 c c1 e he).2.1
      refine ⟨?_, fun i j hij => (h2 i j hij).trans (hup i j hij), ?_⟩
      · intro i j hij hf
        obtain ⟨f1, f2⟩ := h1 i j hij hf
        rw [e1] at f1
        obtain ⟨g1, g2⟩ := near_hess hL r x i2 i3 G i j hij f1
        refine ⟨g1, fun v a k m hn => ?_⟩
        have := f2 _ _ _ _ (by rw [e1]; exact g2 v a k m hn)
        simp only [List.map_cons, List.sum_cons, ← add_assoc]
        have w := this.weaken (n' := k + r.dim + 1 + (l.map fun r => r.dim + 1).sum)
          (m' := m + r.dim + 1 + (l.map fun r => r.dim + 1).sum) (by omega) (by omega)
        exact w
      · intro i hf
        obtain ⟨f1, f2⟩ := h3 i hf
        rw [e2] at f1
        obtain ⟨g1, g2⟩ := near_grad hL r x i2 i3 c _ i f1
        refine ⟨g1, fun v a k m hn => ?_⟩
        have := f2 _ _ _ _ (by rw [e2]; exact g2 v a k m hn)
        have hv : r.valueJ (params r x) = valueAt r x := by rw [i4]; rfl
        rw [hv] at this
        simp only [List.map_cons, List.sum_cons, ← add_assoc]
        have w := this.weaken (n' := k + r.dim + 1 + (l.map fun r => r.dim + 1).sum)
          (m' := m + r.dim + 1 + (l.map fun r => r.dim + 1).sum) (by omega) (by omega)
        exact w

theorem normal_symm (p : Problem D (Dbl L)) (x : Fin n → Dbl L) (i j : Fin D) : exactNormal p x i j = exactNormal p x j i := by
  unfold exactNormal
  refine congrArg List.sum (List.map_congr_left fun r _ => Finset.sum_congr rfl fun k _ => _root_.mul_comm _ _)

theorem normalMag_symm (p : Problem D (Dbl L)) (x : Fin n → Dbl L) (i j : Fin D) :
    normalMagnitude p x i j = normalMagnitude p x j i := by
  unfold normalMagnitude
  refine congrArg List.sum (List.map_congr_left fun r _ => Finset.sum_congr rfl fun k _ => by rw [_root_.mul_comm])

theorem linearize_parts {p : Problem D (Dbl L)} {x : Fin n → Dbl L} {lam : Dbl L} {qp0 qp : QPData D p.M p.K (Dbl L)}
    {pre : Errors (Dbl L)} (h : linearize p x lam qp0 = .ok (qp, pre)) :
    ∃ (G : Fin D → Fin D → Dbl L) (f e : Dbl L), linCosts x p.costs (fun _ _ => 0) (fun _ => 0) 0 = .ok (G, qp.c, f) ∧
      (qp.G = if 0 < lam then fun i j => if i = j then G i j + lam else G i j else G) ∧
      linEqs x p.eqs 0 (fun _ _ => 0) (fun _ => 0) 0 = .ok (qp.A, qp.b, e) ∧ shiftLoop x p.ineq = .ok qp.con := by
  unfold linearize at h
  split at h
  · cases h
  · rename_i G c f hcost
    simp only at h
    split at h
    · cases h
    · rename_i A b err heq
      split at h
      · cases h
      · rename_i con hcon
        cases h
        exact ⟨G, f, err, hcost, rfl, heq, hcon⟩

theorem lt_of_real {x : Dbl L} (h : 0 < realVal x) : 0 < x := by
  rw [realVal_eq] at h
  show F64.lt (F64.zero false) x = true
  cases x with
  | nan => simp [fval] at h
  | inf s => simp [fval] at h
  | fin s a =>
    have h' : (0 : ℝ) < ((F64.value s a : ℚ) : ℝ) := h
    exact zero_lt_fin.mpr (by exact_mod_cast h')

/-- Entries of the cost Hessian and gradient of a completed linearisation. -/
theorem near_linearize (hL : AddsUp L) (p : Problem D (Dbl L)) (x : Fin n → Dbl L) (lam : Dbl L)
    (qp0 qp : QPData D p.M p.K (Dbl L)) (pre : Errors (Dbl L)) (h : linearize p x lam qp0 = .ok (qp, pre))
    (hp : ∀ r ∈ p.costs, IdxIn r n ∧ IdxIn r D ∧ Distinct r ∧ Consistent r) :
    (∀ i j, j ≤ i → IsFin (qp.G i j) →
      Near (qp.G i j) (exactNormal p x i j + if i = j then max (realVal lam) 0 else 0)
        (normalMagnitude p x i j + if i = j then max (realVal lam) 0 else 0) (normalOps p + 1) (normalOps p)) ∧
    (∀ i j, i < j → qp.G i j = 0) ∧
    (∀ i, IsFin (qp.c i) → Near (qp.c i) (exactGradient p x i) (gradientMagnitude p x i) (normalOps p) (normalOps p)) := by
  obtain ⟨G, f, e, h1, h2, -, -⟩ := linearize_parts h
  obtain ⟨g1, g2, g3⟩ := near_linCosts hL x p.costs hp _ _ _ _ _ _ h1
  have hG : ∀ i j, j ≤ i → IsFin (G i j) → Near (G i j) (exactNormal p x i j) (normalMagnitude p x i j) (normalOps p)
      (normalOps p) := by
    intro i j hij hf
    have := (g1 i j hij hf).2 0 0 0 0 near_zero
    simp only [zero_add] at this
    exact this
  refine ⟨?_, ?_, ?_⟩
  · intro i j hij hf
    rw [h2] at hf ⊢
    by_cases hlam : 0 < lam
    · rw [if_pos hlam] at hf ⊢
      by_cases he : i = j
      · simp only [if_pos he] at hf ⊢
        have hadd : Fin' (F64.add (G i j) lam) := hf
        obtain ⟨f1, f2⟩ := add_finite hadd
        have hpos : 0 ≤ realVal lam := zero_le_real (dbl_le_of_lt hlam)
        have := Approx.add (hG i j hij f1) (Approx.exact f2) hadd
        rw [← realVal_eq, abs_of_nonneg hpos] at this
        rw [max_eq_left hpos]
        exact this.weaken (by omega) (by omega)
      · simp only [if_neg he, add_zero] at hf ⊢
        exact (hG i j hij hf).weaken (by omega) (by omega)
    · rw [if_neg hlam] at hf ⊢
      have hm : max (realVal lam) 0 = 0 := by
        refine max_eq_right ?_
        by_contra hc
        exact hlam (lt_of_real (not_le.mp hc))
      rw [hm]
      simp only [ite_self, add_zero]
      exact (hG i j hij hf).weaken (by omega) (by omega)
  · intro i j hij
    rw [h2]
    split_ifs with hlam
    · simp only [if_neg hij.ne]
      exact g2 i j hij
    · exact g2 i j hij
  · intro i hf
    have := (g3 i hf).2 0 0 0 0 near_zero
    simp only [zero_add] at this
    exact this

/-- **C104**, the linearised problem. What `LinearizeAndFillQP` fills in, in doubles: every finite entry of the lower triangle
of `G` is the exact entry of `Σ JᵀJ` (plus `λ` on the diagonal when `λ > 0`) up to the rounding errors of as many operations as
the residuals have rows; the upper triangle is zero; every finite entry of `c` is the exact gradient of the cost up to rounding;
the rows of the equality constraints are copies of the residuals' values and Jacobians; the bounds keep variable and
coefficient, and their finite constants are the exact values at `x` up to two roundings. -/
theorem C104_linearize (hL : AddsUp L) (p : Problem D (Dbl L)) (x : Fin n → Dbl L) (lam : Dbl L)
    (qp0 qp : QPData D p.M p.K (Dbl L)) (pre : Errors (Dbl L)) (h : linearize p x lam qp0 = .ok (qp, pre))
    (hp : ∀ r ∈ p.costs ++ p.eqs, IdxIn r n ∧ IdxIn r D ∧ Distinct r ∧ Consistent r) :
    (∀ i j, j ≤ i → Dbl.Finite (qp.G i j) →
      |realVal (qp.G i j) - (exactNormal p x i j + if i = j then max (realVal lam) 0 else 0)|
        ≤ slop (normalOps p + 1) (normalOps p) (normalMagnitude p x i j + if i = j then max (realVal lam) 0 else 0)) ∧
    (∀ i j, i < j → qp.G i j = 0) ∧
    (∀ i, Dbl.Finite (qp.c i) →
      |realVal (qp.c i) - exactGradient p x i| ≤ slop (normalOps p) (normalOps p) (gradientMagnitude p x i)) ∧
    (∀ (before : List (Residual (Dbl L))) (r : Residual (Dbl L)) (after : List (Residual (Dbl L))),
      p.eqs = before ++ r :: after → ∀ (k : Fin r.dim) (ρ : Fin p.K), ρ.val = (before.map (·.dim)).sum + k.val →
      qp.b ρ = valueAt r x k ∧ ∀ j, realVal (qp.A ρ j) = exactJac r x D k j) ∧
    (∀ m : Fin p.M, (qp.con m).var = (p.ineq.get m).var ∧ (qp.con m).a = (p.ineq.get m).a ∧
      (Dbl.Finite (qp.con m).b →
        |realVal (qp.con m).b - exactBound (p.ineq.get m) x| ≤ slop 2 1 (boundMagnitude (p.ineq.get m) x))) := by
  obtain ⟨g1, g2, g3⟩ := near_linearize hL p x lam qp0 qp pre h fun r hr => hp r (by simp [hr])
  obtain ⟨G, f, e, -, -, h3, h4⟩ := linearize_parts h
  refine ⟨?_, g2, ?_, ?_, ?_⟩
  · intro i j hij hf
    rw [realVal_eq (qp.G i j)]
    exact (g1 i j hij hf).err
  · intro i hf
    rw [realVal_eq (qp.c i)]
    exact (g3 i hf).err
  · intro before r after hs k ρ hρ
    obtain ⟨-, -, i3, i4⟩ := hp r (by simp [hs])
    obtain ⟨q1, q2⟩ := (linEqs_rows p.eqs (fun r hr => ⟨(hp r (by simp [hr])).1, (hp r (by simp [hr])).2.1,
      (hp r (by simp [hr])).2.2.1⟩) _ _ _ _ _ _ _ h3).2 before r after hs k ρ (by omega)
    refine ⟨by rw [q1, i4]; rfl, fun j => ?_⟩
    by_cases hj : ∃ c, r.index c = (j.val : Int)
    · obtain ⟨c, hc⟩ := hj
      rw [(q2 j).1 c hc]
      exact (fullJac_col i3 (fun k l => realVal (r.jac (params r x) k l)) k j c hc).symm
    · rw [(q2 j).2 fun c hc => hj ⟨c, hc⟩]
      refine Eq.trans ?_ (fullJac_none _ k j fun c hc => hj ⟨c, hc⟩).symm
      rw [realVal_eq]
      exact fval_zero false
  · intro m
    obtain ⟨hr, hc⟩ := shiftLoop_form x p.ineq _ h4 m
    rw [hc]
    refine ⟨rfl, rfl, fun hf => ?_⟩
    have hf' : Fin' (F64.add (F64.mul (p.ineq.get m).a (x ⟨(p.ineq.get m).var.toNat, by omega⟩)) (p.ineq.get m).b) := hf
    obtain ⟨f1, f2⟩ := add_finite hf'
    have := (Approx.add (Approx.mul f1) (Approx.exact f2) hf').err
    unfold exactBound boundMagnitude
    rw [dif_pos hr, dif_pos hr]
    simp only [realVal_eq]
    exact this

theorem dual_finite (hL : AddsUp L) {N M K : Nat} (p : QP N M K (Dbl L)) (st : IPState N M K (Dbl L)) (i : Fin N)
    (h : IsFin ((IP.evaluateKKT p true st).r.x i)) : (∀ j, IsFin (symLower p.G i j)) ∧ IsFin (p.c i) := by
  obtain ⟨h1, -, -⟩ := near_fold p st.v.z i (List.finRange M) _ h
  have hbase : ∀ rd0 : Dbl L, rd0 = matVec (symLower p.G) st.v.x i + p.c i → IsFin rd0 →
      (∀ j, IsFin (symLower p.G i j)) ∧ IsFin (p.c i) := by
    rintro rd0 rfl hf
    have hf' : Fin' (F64.add (dot (symLower p.G i) st.v.x : Dbl L) (p.c i)) := hf
    obtain ⟨f1, f2⟩ := add_finite hf'
    exact ⟨fun j => ((near_dot hL _ _ f1).2 j).1, f2⟩
  by_cases hK : 0 < K
  · simp only [if_pos hK] at h1
    have hf' : Fin' (F64.add (matVec (symLower p.G) st.v.x i + p.c i : Dbl L) (F64.neg (matTVec p.A st.v.y i : Dbl L))) := h1
    exact hbase _ rfl (add_finite hf').1
  · simp only [if_neg hK] at h1
    exact hbase _ rfl h1

/-- A QP reported as solved has finite data. -/
theorem solved_finite (hL : AddsUp L) {N M K : Nat} (E : Eigen N K (Dbl L)) (p : QP N M K (Dbl L)) (prm : QPParams (Dbl L))
    (st : IPState N M K (Dbl L)) (r : IPState N M K (Dbl L) × QPOutputs (Dbl L)) (h : IP.solve E p prm st = .ok r)
    (hT : r.2.termination = .satisfiedKktTol) (htol : Dbl.Finite prm.terminationKktTol) :
    (∀ i j, IsFin (symLower p.G i j)) ∧ ∀ i, IsFin (p.c i) := by
  obtain ⟨it, hit, -, hd, -, -⟩ := C63_qp_exit E p prm st r h hT
  obtain ⟨s, it', mu, -, -, hit', hk⟩ := fresh_final h
  rw [hit] at hit'
  obtain rfl := Option.some.inj hit'
  rw [hk] at hd
  have hf := (norm2_lt hL _ _ htol hd).1
  exact ⟨fun i => (dual_finite hL p s i (hf i)).1, fun i => (dual_finite hL p s i (hf i)).2⟩

/-- The gradient of the model from the entries of the exact normal equations. -/
theorem gn_expand (p : Problem D (Dbl L)) (x : Fin n → Dbl L) (lam : ℝ) (dx : Fin D → ℝ) (i : Fin D) :
    gaussNewtonGradient p x lam dx i
      = (∑ j, (exactNormal p x i j + if i = j then max lam 0 else 0) * dx j) + exactGradient p x i := by
  have h1 : ∀ l : List (Residual (Dbl L)),
      (l.map fun r => ∑ k, exactJac r x D k i * (realVal (valueAt r x k) + ∑ j, exactJac r x D k j * dx j)).sum
        = (∑ j, (l.map fun r => ∑ k, exactJac r x D k i * exactJac r x D k j).sum * dx j)
          + (l.map fun r => ∑ k, exactJac r x D k i * realVal (valueAt r x k)).sum := by
    intro l
    induction l with
    | nil => simp
    | cons r l ih =>
      rw [List.map_cons, List.sum_cons, ih]
      have e1 : (∑ k, exactJac r x D k i * (realVal (valueAt r x k) + ∑ j, exactJac r x D k j * dx j))
          = (∑ k, exactJac r x D k i * realVal (valueAt r x k))
            + ∑ j, (∑ k, exactJac r x D k i * exactJac r x D k j) * dx j := by
        simp only [mul_add, Finset.sum_add_distrib, Finset.sum_mul, Finset.mul_sum, mul_assoc]
        rw [Finset.sum_comm (f := fun j k => exactJac r x D k i * (exactJac r x D k j * dx j))]
      rw [e1]
      simp only [List.map_cons, List.sum_cons, add_mul, Finset.sum_add_distrib]
      ring
  unfold gaussNewtonGradient exactNormal exactGradient
  rw [h1]
  simp only [add_mul, Finset.sum_add_distrib, ite_mul, zero_mul, Finset.sum_ite_eq, Finset.mem_univ, if_true]
  ring

/-- **C104**, the step. In an iteration whose interior point solve reports `SATISFIED_KKT_TOL`, in doubles, the step solves the
*exact* damped Gauss-Newton problem at the current variables: with some multipliers, the gradient of
`½ Σ ‖r + J dx‖² + λ/2 ‖dx‖²` is balanced by the constraints' gradients, up to the tolerance and the rounding errors made in
setting up the model and in evaluating the optimality conditions. -/
theorem C104_step (hL : AddsUp L) (env : Env n D (Dbl L)) (prm : NLSParams (Dbl L)) (x0 : Fin n → Dbl L) (o o' : env.Obj)
    (out : NLSOutputs (Dbl L)) (calls : List (NLSIteration (Dbl L))) (h : solve env prm x0 o = .ok (o', out, calls))
    (hp : ∀ r ∈ env.p.costs, IdxIn r n ∧ IdxIn r D ∧ Distinct r ∧ Consistent r)
    (k : Nat) (it : NLSIteration (Dbl L)) (hit : out.iterations[k]? = some it) (q : QPOutputs (Dbl L))
    (hq : it.qpOutputs = .interiorPoint q) (hT : q.termination = .satisfiedKktTol) (htol : Dbl.Finite prm.terminationKktTol)
    (hnan : ∀ iq, q.iterations.getLast? = some iq → iq.kktFinal.rPrimalEq ≠ F64.nan ∧ iq.kktFinal.rPrimalIneq ≠ F64.nan)
    (a b : env.Obj) (ha : After env prm x0 o k a) (hb : After env prm x0 o (k + 1) b) :
    (∀ i, Dbl.Finite (b.dx i)) ∧
    ∃ (hcon : ∀ i, 0 ≤ (b.qp.con i).var ∧ (b.qp.con i).var < (D : Int)) (v : Blocks D env.p.M env.p.K ℝ),
      (∀ i, v.x i = realVal (b.dx i)) ∧
      l2 (fun i => gaussNewtonGradient env.p a.vars (realVal it.lambda) v.x i - (∑ r, realVal (b.qp.A r i) * v.y r)
          - ∑ m, if (b.qp.con m).var = (i.val : Int) then realVal (b.qp.con m).a * v.z m else 0)
        ≤ inflated D (realVal prm.terminationKktTol)
          + l2 (fun i => slop (D + env.p.K + env.p.M + 2) (D + env.p.K + env.p.M)
              (gradMagnitude (realQP (b.qp.typed hcon)) v i))
          + l2 (setupError env.p a.vars (realVal it.lambda) v.x) := by
  obtain ⟨h1, -, h3⟩ := C38_direction env prm x0 o o' out calls h k it hit a b ha hb
  rcases h3 with ⟨hcon, s, s', q', hs, hq', hdx⟩ | ⟨s, s', _, hq', _⟩
  swap
  · rw [hq] at hq'; cases hq'
  rw [hq] at hq'
  cases hq'
  obtain ⟨c1, -, -, c4, -, -⟩ := C102_satisfied_double hL env.E (b.qp.typed hcon) (qpParams env.p prm) _ _ hs hT htol hnan
  obtain ⟨d1, d2⟩ := solved_finite hL env.E (b.qp.typed hcon) (qpParams env.p prm) _ _ hs hT htol
  obtain ⟨g1, -, g3⟩ := near_linearize hL env.p a.vars it.lambda a.qp b.qp it.errorsInitial h1 hp
  have hx : ∀ i, (realBlocks s'.v).x i = realVal (b.dx i) := fun i => by rw [hdx]; rfl
  refine ⟨fun i => by rw [hdx]; exact c1 i, hcon, realBlocks s'.v, hx, ?_⟩
  set v := realBlocks s'.v with hv
  refine (l2_le_add _ (gradLagrangian (realQP (b.qp.typed hcon)) v) (setupError env.p a.vars (realVal it.lambda) v.x)
    fun i => ?_).trans (add_le_add c4 le_rfl)
  have hcons : (∑ m, if ((realQP (b.qp.typed hcon)).con m).var = i then ((realQP (b.qp.typed hcon)).con m).a * v.z m else 0)
      = ∑ m, if (b.qp.con m).var = (i.val : Int) then realVal (b.qp.con m).a * v.z m else 0 := by
    refine Finset.sum_congr rfl fun m _ => ?_
    have hm := hcon m
    have : ((realQP (b.qp.typed hcon)).con m).var = i ↔ (b.qp.con m).var = (i.val : Int) := by
      show (⟨(b.qp.con m).var.toNat, _⟩ : Fin D) = i ↔ _
      rw [Fin.ext_iff]
      simp only
      omega
    simp only [this]
    rfl
  have hgrad : gradLagrangian (realQP (b.qp.typed hcon)) v i
      - (gaussNewtonGradient env.p a.vars (realVal it.lambda) v.x i - (∑ r, realVal (b.qp.A r i) * v.y r)
          - ∑ m, if (b.qp.con m).var = (i.val : Int) then realVal (b.qp.con m).a * v.z m else 0)
      = (∑ j, (Gsym (realQP (b.qp.typed hcon)) i j
          - (exactNormal env.p a.vars i j + if i = j then max (realVal it.lambda) 0 else 0)) * v.x j)
        + (realVal (b.qp.c i) - exactGradient env.p a.vars i) := by
    rw [gn_expand]
    unfold gradLagrangian
    rw [hcons]
    simp only [sub_mul, Finset.sum_sub_distrib]
    show _ + realVal (b.qp.c i) - (∑ r, realVal (b.qp.A r i) * v.y r) - _ - _ = _
    ring
  rw [hgrad]
  refine (abs_add_le _ _).trans (add_le_add ?_ ?_)
  · refine (Finset.abs_sum_le_sum_abs _ _).trans (Finset.sum_le_sum fun j _ => ?_)
    rw [abs_mul]
    refine mul_le_mul_of_nonneg_right ?_ (abs_nonneg _)
    rw [← realVal_symLower]
    have hfin := d1 i j
    rcases le_total j i with hij | hij
    · have e : symLower (b.qp.typed hcon).G i j = b.qp.G i j := by
        unfold symLower; rw [if_pos hij]; rfl
      rw [e] at hfin ⊢
      rw [realVal_eq (b.qp.G i j)]
      exact (g1 i j hij hfin).err
    · have e : symLower (b.qp.typed hcon).G i j = b.qp.G j i := by
        unfold symLower
        by_cases hji : j ≤ i
        · rw [if_pos hji, le_antisymm hij hji]; rfl
        · rw [if_neg hji]; rfl
      rw [e] at hfin ⊢
      rw [realVal_eq (b.qp.G j i), normal_symm, normalMag_symm]
      have := (g1 j i hij hfin).err
      simp only [eq_comm (a := j) (b := i)] at this
      exact this
  · rw [realVal_eq (b.qp.c i)]
    exact (g3 i (d2 i)).err

/-! ### Runs -/

/-- Non-vacuity: the first iteration of the run from 5 towards `√2` in binary64 meets the hypotheses of `C104_step`. -/
theorem C104_demo : ∃ (o' : (DemoF64.env1 DemoF64.sqrt2).Obj) (out : NLSOutputs DemoF64.D64)
    (calls : List (NLSIteration DemoF64.D64)) (it : NLSIteration DemoF64.D64) (q : QPOutputs DemoF64.D64)
    (a b : (DemoF64.env1 DemoF64.sqrt2).Obj),
    solve (DemoF64.env1 DemoF64.sqrt2) (DemoF64.prm 20) (fun _ => DemoF64.d 5) (DemoF64.obj1 DemoF64.sqrt2)
      = .ok (o', out, calls) ∧
    (∀ r ∈ (DemoF64.env1 DemoF64.sqrt2).p.costs, IdxIn r 1 ∧ IdxIn r 1 ∧ Distinct r ∧ Consistent r) ∧
    out.iterations[0]? = some it ∧ it.qpOutputs = .interiorPoint q ∧ q.termination = .satisfiedKktTol ∧
    Dbl.Finite (DemoF64.prm 20).terminationKktTol ∧
    (∀ iq, q.iterations.getLast? = some iq → iq.kktFinal.rPrimalEq ≠ F64.nan ∧ iq.kktFinal.rPrimalIneq ≠ F64.nan) ∧
    After (DemoF64.env1 DemoF64.sqrt2) (DemoF64.prm 20) (fun _ => DemoF64.d 5) (DemoF64.obj1 DemoF64.sqrt2) 0 a ∧
    After (DemoF64.env1 DemoF64.sqrt2) (DemoF64.prm 20) (fun _ => DemoF64.d 5) (DemoF64.obj1 DemoF64.sqrt2) 1 b ∧
    |(b.dx 0).toRat - -23 / 10| < 1 / 10 ^ 15 := by
  have h : (match solve (DemoF64.env1 DemoF64.sqrt2) (DemoF64.prm 20) (fun _ => DemoF64.d 5) (DemoF64.obj1 DemoF64.sqrt2) with
    | .ok (_, out, _) => (match out.iterations[0]? with
      | some it => (match it.qpOutputs with
        | .interiorPoint q => decide (q.termination = .satisfiedKktTol ∧
          (q.iterations.getLast?.all fun it => decide (it.kktFinal.rPrimalEq ≠ F64.nan ∧ it.kktFinal.rPrimalIneq ≠ F64.nan))
            = true)
        | _ => false)
      | none => false)
    | .error _ => false) = true := by decide +kernel
  have h0 : (match solve (DemoF64.env1 DemoF64.sqrt2) { DemoF64.prm 20 with maxIterations := ((0 : Nat) : Int) }
      (fun _ => DemoF64.d 5) (DemoF64.obj1 DemoF64.sqrt2) with
    | .ok (_, out, _) => decide (out.iterations.length = 0)
    | .error _ => false) = true := by decide +kernel
  have h1 : (match solve (DemoF64.env1 DemoF64.sqrt2) { DemoF64.prm 20 with maxIterations := ((1 : Nat) : Int) }
      (fun _ => DemoF64.d 5) (DemoF64.obj1 DemoF64.sqrt2) with
    | .ok (ob, out, _) => decide (out.iterations.length = 1 ∧ |(ob.dx 0).toRat - -23 / 10| < 1 / 10 ^ 15)
    | .error _ => false) = true := by decide +kernel
  split at h
  · rename_i o' out calls hs
    split at h
    · rename_i it hit
      split at h
      · rename_i q hq
        split at h0
        · rename_i a outa callsa hsa
          split at h1
          · rename_i b outb callsb hsb
            obtain ⟨t1, t2⟩ := of_decide_eq_true h
            obtain ⟨t3, t4⟩ := of_decide_eq_true h1
            refine ⟨o', out, calls, it, q, a, b, hs, ?_, hit, hq, t1, by decide +kernel, ?_, ⟨_, _, hsa, of_decide_eq_true h0⟩,
              ⟨_, _, hsb, t3⟩, t4⟩
            · intro r hr
              have : r = DemoF64.sqrt2 := by simpa [DemoF64.env1] using hr
              subst this
              have hi : IdxIn DemoF64.sqrt2 1 := fun l => ⟨le_rfl, show (0 : Int) < 1 from by decide⟩
              exact ⟨hi, hi, fun x y _ => Subsingleton.elim (α := Fin 1) x y, fun p => rfl⟩
            · intro iq hiq
              rw [hiq] at t2
              simp only [Option.all_some, decide_eq_true_eq] at t2
              exact ⟨fun e => t2.1 e, fun e => t2.2 e⟩
          · cases h1
        · cases h0
      · cases h
    · cases h
  · cases h

/-- Rounding does happen: with the Jacobian `0.1`, the entry added to an empty Hessian is not the exact square. -/
theorem C104_rounds : ∃ H' b' f, (DemoF64.res1 id fun _ => DemoF64.d (1 / 10)).updateHessian (fun _ : Fin 1 => DemoF64.d 3)
      (fun _ _ : Fin 1 => 0) (fun _ => 0) = .ok (H', b', f) ∧
    (H' 0 0).toRat ≠ (DemoF64.d (1 / 10)).toRat ^ 2 := by
  have h : (match (DemoF64.res1 id fun _ => DemoF64.d (1 / 10)).updateHessian (fun _ : Fin 1 => DemoF64.d 3)
      (fun _ _ : Fin 1 => 0) (fun _ => 0) with
    | .ok (H', _, _) => decide ((H' 0 0).toRat ≠ (DemoF64.d (1 / 10)).toRat ^ 2)
    | .error _ => false) = true := by decide +kernel
  split at h
  · rename_i H' b' f hs
    exact ⟨H', b', f, hs, of_decide_eq_true h⟩
  · cases h

end MiniOpt.Props
