import Verif.Lemmas.EigenQRRank
import Verif.Props.NullSpace

/-!
# C113: the null-space solver with Eigen's factorisations

`Model/EigenQR.lean` puts the algorithms of Eigen in place of the abstract functions of the other theorems. `eps` is the
machine epsilon in the thresholds that decide the rank (`2⁻⁵²` in the library); the arithmetic is exact.
-/

set_option autoImplicit false

namespace MiniOpt.Props

open MiniOpt MiniOpt.Spec

variable {n M K : Nat}

/-- **C113** (contract). With `eps = 0` all assumptions the other theorems make about these functions hold. -/
theorem C113_contract (dd : ℝ) : NSContract (QR.eigenNS 0 0 dd) where
  qr :=
    { orth := fun A h => QR.qr_orth 0 dd h A
      factor := fun A h => QR.qr_factor 0 dd h A
      perm := fun A h => QR.qr_bijective 0 dd h A
      rank := fun A h => QR.qr_rank_zero dd h A }
  tri := by
    intro K U rhs hU hd k
    refine (QR.forward_solves (L := fun i j => U j i) (List.nodup_finRange K)
      ((List.pairwise_lt_finRange K).imp fun {a b} hab => hU b a hab) (fun k _ => hd k) rhs).2 k (List.mem_finRange k)
  llt := fun S hS => QR.llt_spec S hS

/-- The thresholds only decide whether the solver gives up. -/
theorem ns_thresholds (eps dd : ℝ) (he : 0 ≤ eps) (p : QP n M K ℝ) (st : NSState n ℝ)
    (r : NSState n ℝ × NullSpaceTermination) (h : NS.solve (QR.eigenNS eps 0 dd) p st = .ok r) :
    NS.solve (QR.eigenNS 0 0 dd) p st = .ok r := by
  obtain ⟨hK, hr, -⟩ := ns_ok h
  have h0 : (QR.colPivQR 0 0 dd p.A).rank = K := by
    rw [QR.qr_rank 0 dd hK p.A (le_refl _)]
    intro k l
    have := (QR.qr_rank eps dd hK p.A he).mp hr k l
    rw [mul_zero, zero_mul]
    exact lt_of_le_of_lt (mul_nonneg (mul_nonneg (Nat.cast_nonneg K) he) (QR.norm2_nonneg _)) this
  have hq : (QR.eigenNS 0 0 dd).qr p.A = (QR.eigenNS eps 0 dd).qr p.A := by
    have e : ∀ q q' : QRResult n K ℝ, q.Q = q'.Q → q.R = q'.R → q.perm = q'.perm → q.rank = q'.rank → q = q' := by
      rintro ⟨⟩ ⟨⟩ rfl rfl rfl rfl; rfl
    exact e _ _ rfl rfl rfl (h0.trans hr.symm)
  rw [← h]
  unfold NS.solve
  rw [hq]
  rfl

/-- **C113** (outcome). Whatever the thresholds: if `Solve` returns, the rows of `A_eq` are independent; `SUCCESS` means that the
result satisfies the constraints and is the only minimiser subject to them, `NOT_POSITIVE_DEFINITE` means that there is none. -/
theorem C113_outcome (eps dd : ℝ) (he : 0 ≤ eps) (p : QP n M K ℝ) (st : NSState n ℝ)
    (r : NSState n ℝ × NullSpaceTermination) (h : NS.solve (QR.eigenNS eps 0 dd) p st = .ok r) :
    IndependentRows p ∧
    (r.2 = .success → (∀ k, eqVal p r.1.x k = 0) ∧
      ∀ x', (∀ k, eqVal p x' k = 0) → x' ≠ r.1.x → objective p r.1.x < objective p x') ∧
    (r.2 = .notPositiveDefinite ↔ ¬ PosDefOnNull p) := by
  have h0 := ns_thresholds eps dd he p st r h
  refine ⟨?_, fun hs => C26_null_space_minimiser _ (C113_contract dd) p st r h0 hs,
    (C28_not_posdef_truthful _ (C113_contract dd) p st r h0).1⟩
  obtain ⟨hK, hr, -⟩ := ns_ok h0
  exact ((C113_contract dd).qr.rank p.A hK).mp hr

/-- Every combination of the rows in which some row has coefficient one is longer than `t` times every row: each row keeps a
relative distance of `t` from the span of the others. -/
def Separated (t : ℝ) (A : Fin K → Fin n → ℝ) : Prop :=
  ∀ (y : Fin K → ℝ) (k : Fin K), y k = 1 → ∀ l, t * norm2 (A l) < norm2 fun i => ∑ j, A j i * y j

theorem separated_independent {t : ℝ} (ht : 0 ≤ t) {A : Fin K → Fin n → ℝ} (h : Separated t A) : RowsIndependent A := by
  intro y hy
  by_contra hne
  obtain ⟨k, hk⟩ := Function.ne_iff.mp hne
  have hk' : y k ≠ 0 := hk
  have := h (fun j => y j / y k) k (div_self hk') k
  have e : (fun i => ∑ j, A j i * (y j / y k)) = fun _ => 0 := by
    funext i
    have : ∑ j, A j i * (y j / y k) = (∑ j, A j i * y j) * (y k)⁻¹ := by
      rw [Finset.sum_mul]
      exact Finset.sum_congr rfl fun j _ => by ring
    rw [this, hy i, zero_mul]
  rw [e] at this
  have h0 : norm2 (fun _ : Fin n => (0 : ℝ)) = 0 := by rw [QR.norm2_real]; simp
  rw [h0] at this
  exact absurd this (not_lt.mpr (mul_nonneg ht (QR.norm2_nonneg _)))

/-- **C113** (when it returns). `Solve` returns if every row of `A_eq` keeps a distance of `K eps` times the longest row from the
span of the others. It is undefined behaviour if some row is at most `K eps` times as long as another, even though the rows
may be independent. -/
theorem C113_when (eps dd : ℝ) (he : 0 ≤ eps) (p : QP n M K ℝ) (hK : 0 < K) (st : NSState n ℝ) :
    (Separated (K * eps) p.A → ∃ r, NS.solve (QR.eigenNS eps 0 dd) p st = .ok r) ∧
    ((∃ k l, norm2 (p.A k) ≤ K * eps * norm2 (p.A l)) → ∃ tag, NS.solve (QR.eigenNS eps 0 dd) p st = .error (.ub tag, st)) := by
  constructor
  · intro hs
    have hind := separated_independent (mul_nonneg (Nat.cast_nonneg K) he) hs
    have hle : K ≤ n := by
      by_contra hn
      exact NS.rows_dependent_of_lt p.A (not_le.mp hn) hind
    have hd := (QR.diag_iff dd hle p.A).mpr hind
    have hr : ((QR.eigenNS eps 0 dd).qr p.A).rank = K := (QR.qr_rank eps dd hle p.A he).mpr fun k l => by
      obtain ⟨y, hy1, hy2⟩ := QR.pivot_combination dd hle p.A hd k
      rw [← hy2]
      exact hs y _ hy1 l
    unfold NS.solve
    simp only [hK, not_true, if_false, hle, dif_pos, hr, ne_eq]
    split
    · exact ⟨_, rfl⟩
    · exact ⟨_, rfl⟩
  · rintro ⟨k, l, hkl⟩
    unfold NS.solve
    simp only [hK, not_true, if_false]
    split_ifs with hle hr
    · exact ⟨_, rfl⟩
    · exfalso
      have hr' : (QR.colPivQR eps 0 dd p.A).rank = K := not_not.mp hr
      obtain ⟨k', hk'⟩ := (QR.qr_bijective 0 dd hle p.A).2 k
      rw [QR.qr_perm dd hle p.A] at hk'
      have h1 := (QR.qr_rank eps dd hle p.A he).mp hr' k' l
      have h2 := QR.diag_le dd hle p.A k'
      rw [hk'] at h2
      exact absurd (lt_of_lt_of_le h1 h2) (not_lt.mpr hkl)
    · exact ⟨_, rfl⟩

/-- Rows that are orthogonal to each other are as far from each other's span as they are long. -/
theorem separated_of_orthogonal {t : ℝ} {A : Fin K → Fin n → ℝ} (ho : ∀ k l, k ≠ l → ∑ i, A k i * A l i = 0)
    (hs : ∀ k l, t * norm2 (A l) < norm2 (A k)) : Separated t A := by
  intro y k hy l
  refine lt_of_lt_of_le (hs k l) ?_
  rw [QR.norm2_real, QR.norm2_real]
  refine Real.sqrt_le_sqrt ?_
  have e : ∑ i, (∑ j, A j i * y j) * (∑ j, A j i * y j) = ∑ j, y j * y j * ∑ i, A j i * A j i := by
    simp_rw [Finset.sum_mul_sum]
    rw [Finset.sum_comm]
    refine Finset.sum_congr rfl fun j _ => ?_
    rw [Finset.sum_comm]
    have e2 : ∀ l, ∑ i, A j i * y j * (A l i * y l) = if l = j then y j * y j * ∑ i, A j i * A j i else 0 := fun l => by
      have e3 : ∑ i, A j i * y j * (A l i * y l) = (∑ i, A j i * A l i) * (y j * y l) := by
        rw [Finset.sum_mul]
        exact Finset.sum_congr rfl fun i _ => by ring
      rw [e3]
      by_cases hl : l = j
      · subst hl; rw [if_pos rfl]; ring
      · rw [if_neg hl, ho j l fun e => hl e.symm, zero_mul]
    rw [Finset.sum_congr rfl fun l _ => e2 l, Finset.sum_ite_eq' Finset.univ j, if_pos (Finset.mem_univ _)]
  rw [e]
  refine le_trans (le_of_eq ?_) (Finset.single_le_sum (f := fun j => y j * y j * ∑ i, A j i * A j i)
    (fun j _ => mul_nonneg (mul_self_nonneg _) (Finset.sum_nonneg fun i _ => mul_self_nonneg _)) (Finset.mem_univ k))
  rw [hy]; ring

/-- **C113** (orthogonal rows). If the rows of `A_eq` are orthogonal to each other, for instance because each constraint fixes
another variable, `Solve` returns if and only if every row is longer than `K eps` times every other: otherwise it is undefined
behaviour. -/
theorem C113_orthogonal (eps dd : ℝ) (he : 0 ≤ eps) (p : QP n M K ℝ) (hK : 0 < K) (st : NSState n ℝ)
    (ho : ∀ k l, k ≠ l → ∑ i, p.A k i * p.A l i = 0) :
    ((∃ r, NS.solve (QR.eigenNS eps 0 dd) p st = .ok r) ↔ ∀ k l, K * eps * norm2 (p.A l) < norm2 (p.A k)) ∧
    ((∃ tag, NS.solve (QR.eigenNS eps 0 dd) p st = .error (.ub tag, st)) ↔
      ∃ k l, norm2 (p.A k) ≤ K * eps * norm2 (p.A l)) := by
  obtain ⟨h1, h2⟩ := C113_when eps dd he p hK st
  have h1' : (∀ k l, K * eps * norm2 (p.A l) < norm2 (p.A k)) → _ := fun h => h1 (separated_of_orthogonal ho h)
  have hdich : (∀ k l, K * eps * norm2 (p.A l) < norm2 (p.A k)) ∨ ∃ k l, norm2 (p.A k) ≤ K * eps * norm2 (p.A l) := by
    by_cases h : ∀ k l, K * eps * norm2 (p.A l) < norm2 (p.A k)
    · exact Or.inl h
    · push Not at h; exact Or.inr h
  constructor
  · refine ⟨fun ⟨r, hr⟩ => ?_, h1'⟩
    rcases hdich with h | h
    · exact h
    · obtain ⟨tag, ht⟩ := h2 h
      rw [hr] at ht; cases ht
  · refine ⟨fun ⟨tag, ht⟩ => ?_, h2⟩
    rcases hdich with h | h
    · obtain ⟨r, hr⟩ := h1' h
      rw [hr] at ht; cases ht
    · exact h

end MiniOpt.Props
