import Verif.Lemmas.QPReal
import Mathlib.LinearAlgebra.Matrix.ToLinearEquiv

/-! Nonsingularity of the reduced and of the KKT matrix. -/

set_option autoImplicit false

namespace MiniOpt.IP

open MiniOpt MiniOpt.Spec

variable {N M K : Nat}

theorem block_nonsing (p : QP N M K ℝ) (B : Fin N → Fin N → ℝ) (R : Matrix (Red N K) (Red N K) ℝ)
    (hR : ∀ i j, R (.inl i) (.inl j) = B i j) (hR1 : ∀ i k, R (.inl i) (.inr k) = p.A k i)
    (hR2 : ∀ k j, R (.inr k) (.inl j) = p.A k j) (hR3 : ∀ k l, R (.inr k) (.inr l) = 0)
    (hB : ∀ x : Fin N → ℝ, x ≠ 0 → NullDir p x → 0 < ∑ i, ∑ j, x i * B i j * x j)
    (hA : IndependentRows p) : IsUnit R.det := by
  rw [isUnit_iff_ne_zero]
  intro hdet
  obtain ⟨v, hv0, hv⟩ := (Matrix.exists_mulVec_eq_zero_iff (M := R)).mpr hdet
  have row1 : ∀ i, (∑ j, B i j * v (.inl j)) + ∑ k, p.A k i * v (.inr k) = 0 := by
    intro i
    have := congrFun hv (.inl i)
    rw [Matrix.mulVec, dotProduct, Fintype.sum_sum_type] at this
    simpa [hR, hR1] using this
  have row2 : ∀ k, (∑ j, p.A k j * v (.inl j)) = 0 := by
    intro k
    have := congrFun hv (.inr k)
    rw [Matrix.mulVec, dotProduct, Fintype.sum_sum_type] at this
    simpa [hR2, hR3] using this
  have hx : (fun j => v (.inl j)) = 0 := by
    by_contra hne
    have hpos := hB _ hne row2
    have h1 : ∑ i, v (.inl i) * ((∑ j, B i j * v (.inl j)) + ∑ k, p.A k i * v (.inr k)) = 0 :=
      Finset.sum_eq_zero fun i _ => by rw [row1 i, mul_zero]
    have h2 : ∑ i, v (.inl i) * ∑ k, p.A k i * v (.inr k) = 0 := by
      have : ∑ i, v (.inl i) * ∑ k, p.A k i * v (.inr k)
          = ∑ k, v (.inr k) * ∑ i, p.A k i * v (.inl i) := by
        simp_rw [Finset.mul_sum]
        rw [Finset.sum_comm]
        exact Finset.sum_congr rfl fun k _ => Finset.sum_congr rfl fun i _ => by ring
      rw [this]
      exact Finset.sum_eq_zero fun k _ => by rw [row2 k, mul_zero]
    simp_rw [mul_add, Finset.sum_add_distrib] at h1
    rw [h2, add_zero] at h1
    have h3 : ∑ i, ∑ j, v (.inl i) * B i j * v (.inl j) = ∑ i, v (.inl i) * ∑ j, B i j * v (.inl j) := by
      simp_rw [Finset.mul_sum, mul_assoc]
    rw [h3, h1] at hpos
    exact lt_irrefl _ hpos
  have hx' : ∀ j, v (.inl j) = 0 := fun j => congrFun hx j
  have hy : (fun k => v (.inr k)) = 0 := by
    apply hA
    intro j
    have := row1 j
    simpa [hx'] using this
  apply hv0
  funext r
  rcases r with i | k
  · exact hx' i
  · exact congrFun hy k

theorem kktMatrix_nonsing (p : QP N M K ℝ) (hG : PosDefOnNull p) (hA : IndependentRows p) :
    IsUnit (kktMatrix p).det :=
  block_nonsing p (Gsym p) _ (fun _ _ => rfl) (fun _ _ => rfl) (fun _ _ => rfl) (fun _ _ => rfl) hG hA

/-- The quadratic form of the reduced Hessian block. -/
theorem reduced_quad (p : QP N M K ℝ) (v : Blocks N M K ℝ) (x : Fin N → ℝ) :
    ∑ i, ∑ j, x i * reducedMatrix p v (.inl i) (.inl j) * x j
      = (∑ i, ∑ j, x i * Gsym p i j * x j)
        + ∑ m, v.z m / v.s m * ((p.con m).a * x (p.con m).var) ^ 2 := by
  have h2 : ∑ i, ∑ j, x i * reducedMatrix p v (.inl i) (.inl j) * x j
      = (∑ i, ∑ j, x i * Gsym p i j * x j) + ∑ i, x i * (∑ m, (if (p.con m).var = i then
          (p.con m).a * (v.z m / v.s m) * (p.con m).a else 0)) * x i := by
    rw [← Finset.sum_add_distrib]
    apply Finset.sum_congr rfl
    intro i _
    simp only [reducedMatrix, mul_add, add_mul, Finset.sum_add_distrib]
    congr 1
    rw [Finset.sum_eq_single i]
    · simp
    · intro j _ hj; simp [Ne.symm hj]
    · simp
  rw [h2]
  congr 1
  simp_rw [Finset.mul_sum, Finset.sum_mul]
  rw [Finset.sum_comm]
  apply Finset.sum_congr rfl
  intro m _
  rw [Finset.sum_eq_single (p.con m).var]
  · simp; ring
  · intro i _ hi; simp [Ne.symm hi]
  · simp

theorem reducedMatrix_nonsing (p : QP N M K ℝ) (v : Blocks N M K ℝ) (hR : Regular p)
    (hs : ∀ m, 0 < v.s m) (hz : ∀ m, 0 < v.z m) : IsUnit (reducedMatrix p v).det := by
  refine block_nonsing p (fun i j => reducedMatrix p v (.inl i) (.inl j)) _ (fun _ _ => rfl)
    (fun _ _ => rfl) (fun _ _ => rfl) (fun _ _ => rfl) ?_ hR.rows
  intro x hx hn
  rw [reduced_quad]
  have hnn : ∀ m ∈ Finset.univ, 0 ≤ v.z m / v.s m * ((p.con m).a * x (p.con m).var) ^ 2 := fun m _ =>
    mul_nonneg (div_nonneg (hz m).le (hs m).le) (sq_nonneg _)
  by_cases h : ∀ m, (p.con m).a * x (p.con m).var = 0
  · have := hR.pd x hx hn h
    have := Finset.sum_nonneg hnn
    linarith
  · push Not at h
    obtain ⟨m, hm⟩ := h
    have h1 := hR.psd x hn
    have h2 := Finset.single_le_sum hnn (Finset.mem_univ m)
    have h3 : 0 < v.z m / v.s m * ((p.con m).a * x (p.con m).var) ^ 2 :=
      mul_pos (div_pos (hz m) (hs m)) (by positivity)
    linarith

/-- A positive semidefinite symmetric form vanishes only on its kernel. -/
theorem psd_kernel (p : QP N M K ℝ) (h : PSDG p) (x : Fin N → ℝ)
    (hx : ∑ i, ∑ j, x i * Gsym p i j * x j = 0) : ∀ i, ∑ j, Gsym p i j * x j = 0 := by
  have symm : ∀ i j, Gsym p i j = Gsym p j i := fun i j => by unfold Gsym; rw [max_comm, min_comm]
  set g : Fin N → ℝ := fun i => ∑ j, Gsym p i j * x j with hg
  set Q : ℝ := ∑ i, ∑ j, g i * Gsym p i j * g j with hQ
  have hQ0 : 0 ≤ Q := h g
  have key : ∀ t : ℝ, 0 ≤ 2 * t * (∑ i, g i ^ 2) + t ^ 2 * Q := by
    intro t
    have h0 := h (fun i => x i + t * g i)
    have e : ∑ i, ∑ j, (x i + t * g i) * Gsym p i j * (x j + t * g j)
        = (∑ i, ∑ j, x i * Gsym p i j * x j) + t * (∑ i, ∑ j, g i * Gsym p i j * x j)
          + t * (∑ i, ∑ j, x i * Gsym p i j * g j) + t ^ 2 * Q := by
      simp only [hQ, Finset.mul_sum, ← Finset.sum_add_distrib]
      exact Finset.sum_congr rfl fun i _ => Finset.sum_congr rfl fun j _ => by ring
    have e1 : ∑ i, ∑ j, g i * Gsym p i j * x j = ∑ i, g i ^ 2 := by
      apply Finset.sum_congr rfl
      intro i _
      rw [pow_two]
      conv_rhs => rw [show g i * g i = g i * ∑ j, Gsym p i j * x j from rfl, Finset.mul_sum]
      exact Finset.sum_congr rfl fun j _ => by ring
    have e2 : ∑ i, ∑ j, x i * Gsym p i j * g j = ∑ i, g i ^ 2 := by
      rw [Finset.sum_comm, ← e1]
      exact Finset.sum_congr rfl fun i _ => Finset.sum_congr rfl fun j _ => by rw [symm i j]; ring
    rw [e, hx, e1, e2] at h0
    linarith
  have hS0 : 0 ≤ ∑ i, g i ^ 2 := Finset.sum_nonneg fun i _ => sq_nonneg _
  have hS : ∑ i, g i ^ 2 = 0 := by
    by_contra hne
    have hS : 0 < ∑ i, g i ^ 2 := lt_of_le_of_ne hS0 (Ne.symm hne)
    set S := ∑ i, g i ^ 2
    have hk := key (-(S / (Q + 1)))
    have hQ1 : 0 < Q + 1 := by linarith
    have : 2 * -(S / (Q + 1)) * S + (-(S / (Q + 1))) ^ 2 * Q = -(S ^ 2 * (Q + 2)) / (Q + 1) ^ 2 := by
      field_simp; ring
    rw [this] at hk
    have : 0 < S ^ 2 * (Q + 2) / (Q + 1) ^ 2 := by positivity
    rw [neg_div] at hk
    linarith
  intro i
  have := (Finset.sum_eq_zero_iff_of_nonneg (fun i _ => sq_nonneg (g i))).mp hS i (Finset.mem_univ i)
  exact pow_eq_zero_iff (two_ne_zero) |>.mp this

/-- For positive semidefinite `G` the reduced matrix is nonsingular *only* for regular problems. -/
theorem regular_of_nonsing (p : QP N M K ℝ) (v : Blocks N M K ℝ) (hP : PSDG p)
    (hA : IndependentRows p) (h : IsUnit (reducedMatrix p v).det) : Regular p := by
  refine ⟨hA, fun d _ => hP d, ?_⟩
  intro d hd hn hcon
  refine lt_of_le_of_ne (hP d) fun h0 => ?_
  rw [isUnit_iff_ne_zero] at h
  apply h
  apply (Matrix.exists_mulVec_eq_zero_iff (M := reducedMatrix p v)).mp
  refine ⟨Sum.elim d 0, ?_, ?_⟩
  · intro hz; apply hd; funext i; exact congrFun hz (.inl i)
  · funext r
    rw [Matrix.mulVec, dotProduct, Fintype.sum_sum_type]
    rcases r with i | k
    · have hk := psd_kernel p hP d h0.symm i
      simp only [reducedMatrix, Sum.elim_inl, Sum.elim_inr, Pi.zero_apply, mul_zero,
        Finset.sum_const_zero, add_zero, add_mul, Finset.sum_add_distrib, hk, zero_add]
      apply Finset.sum_eq_zero
      intro j _
      by_cases hij : i = j
      · subst hij
        rw [if_pos rfl, Finset.sum_mul]
        apply Finset.sum_eq_zero
        intro m _
        split_ifs with hm
        · have := hcon m
          rw [hm] at this
          rw [show (p.con m).a * (v.z m / v.s m) * (p.con m).a * d i
            = (p.con m).a * (v.z m / v.s m) * ((p.con m).a * d i) by ring, this, mul_zero]
        · exact zero_mul _
      · rw [if_neg hij, zero_mul]
    · simpa [reducedMatrix] using hn k

end MiniOpt.IP
