import Verif.Lemmas.EigenQRContract

/-!
# The rank reported by the QR factorisation (exact arithmetic)
-/

set_option autoImplicit false

namespace MiniOpt.QR

open MiniOpt MiniOpt.Spec

variable {n K : Nat}

theorem diag_le (dd : ℝ) (h : K ≤ n) (A : Fin K → Fin n → ℝ) (k : Fin K) : |diag dd h A k| ≤ norm2 (A (piv dd h A k).id) := by
  rw [norm2_real]
  refine Real.le_sqrt_of_sq_le ?_
  rw [sq_abs]
  have hc := combination_sq dd h A fun l => if l = k then 1 else 0
  simp only [mul_ite, mul_one, mul_zero, Finset.sum_ite_eq', Finset.mem_univ, if_true] at hc
  rw [hc, ← upper_diag, pow_two]
  exact Finset.single_le_sum (f := fun j => upper dd h A j k * upper dd h A j k) (fun j _ => mul_self_nonneg _) (Finset.mem_univ k)

theorem maxPivot_fold : ∀ (ps : List (Pivot n (Fin K) ℝ)) (m : ℝ),
    m ≤ ps.foldl (fun m p => if m < Scalar.abs (p.R p.refl.k) then Scalar.abs (p.R p.refl.k) else m) m ∧
    (∀ p ∈ ps, |p.R p.refl.k| ≤ ps.foldl (fun m p => if m < Scalar.abs (p.R p.refl.k) then Scalar.abs (p.R p.refl.k) else m) m) ∧
    ∀ B, m ≤ B → (∀ p ∈ ps, |p.R p.refl.k| ≤ B) →
      ps.foldl (fun m p => if m < Scalar.abs (p.R p.refl.k) then Scalar.abs (p.R p.refl.k) else m) m ≤ B
  | [], m => ⟨le_refl m, fun p hp => by simp at hp, fun B hB _ => hB⟩
  | p :: ps, m => by
    rw [List.foldl_cons]
    obtain ⟨h1, h2, h3⟩ := maxPivot_fold ps (if m < Scalar.abs (p.R p.refl.k) then Scalar.abs (p.R p.refl.k) else m)
    rw [real_abs] at *
    have hm : m ≤ (if m < |p.R p.refl.k| then |p.R p.refl.k| else m) ∧ |p.R p.refl.k| ≤ (if m < |p.R p.refl.k| then |p.R p.refl.k| else m) := by
      split_ifs with h
      · exact ⟨h.le, le_refl _⟩
      · exact ⟨le_refl _, not_lt.mp h⟩
    refine ⟨hm.1.trans h1, ?_, ?_⟩
    · intro q hq
      rcases List.mem_cons.mp hq with rfl | hq
      · exact hm.2.trans h1
      · exact h2 q hq
    · intro B hB hall
      refine h3 B ?_ fun q hq => hall q (by simp [hq])
      split_ifs
      · exact hall p (by simp)
      · exact hB

/-- The longest row is taken first. -/
theorem first_pivot (dd : ℝ) (h : K ≤ n) (A : Fin K → Fin n → ℝ) (hK : 0 < K) :
    (∃ l, |diag dd h A ⟨0, hK⟩| = norm2 (A l)) ∧ ∀ l, norm2 (A l) ≤ |diag dd h A ⟨0, hK⟩| := by
  obtain ⟨m, rfl⟩ : ∃ m, K = m + 1 := ⟨K - 1, by omega⟩
  have hn : 0 < n := by omega
  rw [← piv_norm]
  have e : (pivots dd A)[0]? = some (piv dd h A ⟨0, hK⟩) := piv_get dd h A ⟨0, hK⟩
  unfold pivots at e
  have hfr : List.finRange (m + 1) = 0 :: (List.finRange m).map Fin.succ := List.finRange_succ
  rw [hfr, steps, dif_pos hn] at e
  dsimp only at e
  rw [List.getElem?_cons_zero] at e
  have e' := Option.some.inj e
  rw [← e']
  dsimp only
  refine ⟨⟨_, rfl⟩, fun l => LDLT.firstMax_max (fun k => norm2 (A k)) 0 _ l ?_⟩
  rw [← hfr]
  exact List.mem_finRange l

theorem maxPivot_real (dd : ℝ) (h : K ≤ n) (A : Fin K → Fin n → ℝ) (hK : 0 < K) :
    maxPivot (pivots dd A) = |diag dd h A ⟨0, hK⟩| := by
  obtain ⟨_, h2, h3⟩ := maxPivot_fold (pivots dd A) 0
  refine le_antisymm (h3 _ (abs_nonneg _) fun p hp => ?_) ?_
  · obtain ⟨k, rfl⟩ := mem_piv dd h A hp
    rw [diag_eq]
    exact (diag_le dd h A k).trans ((first_pivot dd h A hK).2 _)
  · have := h2 _ (piv_mem dd h A ⟨0, hK⟩)
    rw [diag_eq] at this
    exact this

theorem nonzeroPivots_all (helper : ℝ) : ∀ (ps : List (Pivot n (Fin K) ℝ)) (k : Nat),
    (∀ p ∈ ps, ∀ j : Nat, ¬ p.norm * p.norm < helper * Scalar.lit ((n - j : Nat) : ℚ)) → nonzeroPivots helper k ps = ps.length
  | [], _, _ => rfl
  | p :: ps, k, h => by
    rw [nonzeroPivots, if_neg (h p (by simp) k), nonzeroPivots_all helper ps (k + 1) fun q hq => h q (by simp [hq]), List.length_cons]

/-- The rank is full exactly if every pivot exceeds `K eps` times the length of the longest row. -/
theorem qr_rank (eps dd : ℝ) (h : K ≤ n) (A : Fin K → Fin n → ℝ) (he : 0 ≤ eps) :
    (colPivQR eps 0 dd A).rank = K ↔ ∀ k l, K * eps * norm2 (A l) < |diag dd h A k| := by
  rcases Nat.eq_zero_or_pos K with rfl | hK
  · refine ⟨fun _ k => k.elim0, fun _ => ?_⟩
    rfl
  set ps := pivots dd A with hps
  have hlen : ps.length = K := pivots_length dd h A
  obtain ⟨⟨l0, hl0⟩, hmax⟩ := first_pivot dd h A hK
  have hbig : biggest (fun k => norm2 (A k)) = |diag dd h A ⟨0, hK⟩| := by
    obtain ⟨m, rfl⟩ : ∃ m, K = m + 1 := ⟨K - 1, by omega⟩
    unfold biggest
    rw [List.finRange_succ]
    dsimp only
    refine le_antisymm (hmax _) ?_
    rw [hl0]
    exact LDLT.firstMax_max (fun k => norm2 (A k)) 0 _ l0 (by rw [← List.finRange_succ]; exact List.mem_finRange _)
  set B := |diag dd h A ⟨0, hK⟩| with hB
  have hB0 : 0 ≤ B := abs_nonneg _
  have hrank : (colPivQR eps 0 dd A).rank = rank (eps * (K : ℝ)) (nonzeroPivots (B * eps * (B * eps) / (n : ℝ)) 0 ps) ps := by
    unfold colPivQR
    dsimp only
    rw [hbig]
    simp only [real_lit, Rat.cast_natCast, min_eq_right h]
    rfl
  have hcond : ∀ p : Pivot n (Fin K) ℝ, decide (Scalar.abs (maxPivot ps) * (eps * (K : ℝ)) < Scalar.abs (p.R p.refl.k)) = true
      ↔ K * eps * B < |p.R p.refl.k| := fun p => by
    rw [decide_eq_true_eq, real_abs, real_abs, hps, maxPivot_real dd h A hK, ← hB, abs_of_nonneg hB0]
    rw [show B * (eps * (K : ℝ)) = K * eps * B by ring]
  have hall : (∀ p ∈ ps, K * eps * B < |p.R p.refl.k|) ↔ ∀ k l, K * eps * norm2 (A l) < |diag dd h A k| := by
    constructor
    · intro hp k l
      have := hp _ (piv_mem dd h A k)
      rw [diag_eq] at this
      exact lt_of_le_of_lt (mul_le_mul_of_nonneg_left (hmax l) (mul_nonneg (Nat.cast_nonneg K) he)) this
    · intro hk p hp
      obtain ⟨k, rfl⟩ := mem_piv dd h A hp
      rw [diag_eq, hl0]
      exact hk k l0
  rw [hrank, ← hall]
  unfold rank
  constructor
  · intro hr p hp
    have h1 : (ps.take (nonzeroPivots (B * eps * (B * eps) / (n : ℝ)) 0 ps)).length = ps.length := by
      refine le_antisymm (by rw [List.length_take]; exact min_le_right _ _) ?_
      rw [hlen]
      conv_lhs => rw [← hr]
      exact List.countP_le_length
    have h2 : ps.take (nonzeroPivots (B * eps * (B * eps) / (n : ℝ)) 0 ps) = ps :=
      (List.take_sublist _ _).eq_of_length h1
    rw [h2] at hr
    exact (hcond p).mp (List.countP_eq_length.mp (hr.trans hlen.symm) p hp)
  · intro hp
    have hnz : nonzeroPivots (B * eps * (B * eps) / (n : ℝ)) 0 ps = ps.length := by
      refine nonzeroPivots_all _ ps 0 fun p hpm j => not_lt.mpr ?_
      have h1 := hp p hpm
      obtain ⟨k, rfl⟩ := mem_piv dd h A hpm
      rw [diag_eq] at h1
      rw [piv_norm, real_lit]
      have hK1 : (1 : ℝ) ≤ K := by exact_mod_cast hK
      have hn0 : (0 : ℝ) < n := by exact_mod_cast (by omega : 0 < n)
      have hle : B * eps ≤ |diag dd h A k| := by
        have : B * eps ≤ K * eps * B := by nlinarith [mul_nonneg hB0 he]
        exact this.trans h1.le
      have hsq : B * eps * (B * eps) ≤ |diag dd h A k| * |diag dd h A k| :=
        mul_self_le_mul_self (mul_nonneg hB0 he) hle
      refine le_trans ?_ hsq
      have hfrac : (((n - j : Nat) : ℚ) : ℝ) ≤ n := by
        rw [Rat.cast_natCast]
        exact_mod_cast Nat.sub_le n j
      rw [div_mul_eq_mul_div, div_le_iff₀ hn0]
      exact mul_le_mul_of_nonneg_left hfrac (mul_self_nonneg _)
    rw [hnz, List.take_length]
    exact (List.countP_eq_length.mpr fun p hpm => (hcond p).mpr (hp p hpm)).trans hlen

/-- Without thresholds the reported rank is full exactly if the rows are independent. -/
theorem qr_rank_zero (dd : ℝ) (h : K ≤ n) (A : Fin K → Fin n → ℝ) : (colPivQR 0 0 dd A).rank = K ↔ RowsIndependent A := by
  rw [qr_rank 0 dd h A (le_refl _), ← diag_iff dd h A]
  constructor
  · intro hk k
    have := hk k k
    rw [mul_zero, zero_mul] at this
    exact abs_pos.mp this
  · intro hk k l
    rw [mul_zero, zero_mul]
    exact abs_pos.mpr (hk k)

theorem norm2_nonneg {m : Nat} (x : Fin m → ℝ) : 0 ≤ norm2 x := by rw [norm2_real]; exact Real.sqrt_nonneg _

/-- The combination of rows that the `k`-th pivot measures. -/
theorem pivot_combination (dd : ℝ) (h : K ≤ n) (A : Fin K → Fin n → ℝ) (hd : ∀ k, diag dd h A k ≠ 0) (k : Fin K) :
    ∃ y : Fin K → ℝ, y (piv dd h A k).id = 1 ∧ norm2 (fun i => ∑ l, A l i * y l) = |diag dd h A k| := by
  set pre := (List.finRange K).filter fun j => j < k with hpre
  have hmem : ∀ j, j ∈ pre ↔ j < k := fun j => by simp [hpre]
  have hsort : pre.Pairwise (· < ·) := (List.pairwise_lt_finRange K).sublist List.filter_sublist
  have hnd : pre.reverse.Nodup := List.nodup_reverse.mpr ((List.nodup_finRange K).sublist List.filter_sublist)
  obtain ⟨w1, w2⟩ := forward_solves (L := upper dd h A) (order := pre.reverse) hnd
    (List.pairwise_reverse.mpr (hsort.imp fun {a b} hab => if_neg (not_le.mpr hab)))
    (fun j _ => by rw [upper_diag]; exact hd j) (fun j => -upper dd h A j k)
  set w := forward (upper dd h A) (fun j => -upper dd h A j k) [] pre.reverse (fun _ => 0)
  have hwk : ∀ l, ¬ l < k → w l = 0 := fun l hl => w1 l (by rw [List.mem_reverse, hmem]; exact hl)
  set z : Fin K → ℝ := fun l => if l = k then 1 else w l with hz
  have hUz : ∀ j, ∑ l, upper dd h A j l * z l = if j = k then diag dd h A k else 0 := fun j => by
    have e : ∀ l, upper dd h A j l * z l = upper dd h A j l * w l + if l = k then upper dd h A j k else 0 := fun l => by
      by_cases hl : l = k
      · subst hl; simp [hz, hwk l (lt_irrefl l)]
      · simp [hz, hl]
    rw [Finset.sum_congr rfl fun l _ => e l, Finset.sum_add_distrib, Finset.sum_ite_eq' Finset.univ k, if_pos (Finset.mem_univ _)]
    rcases lt_trichotomy j k with hj | hj | hj
    · rw [w2 j (by rw [List.mem_reverse, hmem]; exact hj), if_neg hj.ne]; ring
    · subst hj
      rw [if_pos rfl, upper_diag]
      have : ∑ l, upper dd h A j l * w l = 0 := Finset.sum_eq_zero fun l _ => by
        by_cases hl : l < j
        · rw [show upper dd h A j l = 0 from if_neg (not_le.mpr hl), zero_mul]
        · rw [hwk l hl, mul_zero]
      rw [this, zero_add]
    · rw [if_neg hj.ne', show upper dd h A j k = 0 from if_neg (not_le.mpr hj), add_zero]
      refine Finset.sum_eq_zero fun l _ => ?_
      by_cases hl : l < k
      · rw [show upper dd h A j l = 0 from if_neg (not_le.mpr (hl.trans hj)), zero_mul]
      · rw [hwk l hl, mul_zero]
  have hbij := qr_bijective 0 dd h A
  set σ := Equiv.ofBijective _ hbij with hσ
  have hid : ∀ k, (piv dd h A k).id = σ k := fun k => by rw [hσ, Equiv.ofBijective_apply, qr_perm dd h A]
  refine ⟨fun l => z (σ.symm l), by rw [hid]; simp [hz], ?_⟩
  have hc := combination_sq dd h A z
  have hre : ∀ i, ∑ k, A (piv dd h A k).id i * z k = ∑ l, A l i * z (σ.symm l) := fun i => by
    rw [← Equiv.sum_comp σ fun l => A l i * z (σ.symm l)]
    exact Finset.sum_congr rfl fun k _ => by rw [hid, Equiv.symm_apply_apply]
  simp_rw [hre] at hc
  rw [norm2_real, hc]
  simp_rw [hUz]
  have : ∑ x, (if x = k then diag dd h A k else 0) * (if x = k then diag dd h A k else 0) = diag dd h A k * diag dd h A k := by
    rw [Finset.sum_eq_single k (fun b _ hb => by simp [hb]) (fun hb => absurd (Finset.mem_univ k) hb)]
    simp
  rw [this, Real.sqrt_mul_self_eq_abs]

end MiniOpt.QR
