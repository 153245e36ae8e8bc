import Verif.Spec.NullSpaceSpec
import Verif.Lemmas.QPReal
import Mathlib.LinearAlgebra.Matrix.Block
import Mathlib.LinearAlgebra.Matrix.ToLinearEquiv
import Mathlib.LinearAlgebra.Dimension.Constructions

/-! Linear algebra behind the null-space solver. -/

set_option autoImplicit false

namespace MiniOpt.NS

open MiniOpt MiniOpt.Spec MiniOpt.IP Matrix

theorem sum_split {n K : Nat} (h : K ≤ n) (f : Fin n → ℝ) :
    ∑ i, f i = (∑ k : Fin K, f (k.castLE h)) + ∑ j : Fin (n - K), f ⟨K + j.val, by omega⟩ := by
  have hn : K + (n - K) = n := by omega
  rw [← Equiv.sum_comp (finCongr hn) f, Fin.sum_univ_add]
  rfl

theorem rows_dependent_of_lt {n K : Nat} (A : Fin K → Fin n → ℝ) (h : n < K) : ¬ RowsIndependent A := by
  intro hind
  have hli : LinearIndependent ℝ A := by
    rw [Fintype.linearIndependent_iff]
    intro g hg
    have := hind g (fun j => by
      have := congrFun hg j
      simpa [Finset.sum_apply, mul_comm] using this)
    intro i; rw [this]; rfl
  have := hli.fintype_card_le_finrank
  simp at this
  omega

section
variable {n K : Nat} (h : K ≤ n) (A : Fin K → Fin n → ℝ) (q : QRResult n K ℝ)

/-- The facts about one factorisation. -/
structure QRFacts : Prop where
  orth : ∀ i j, ∑ a, q.Q a i * q.Q a j = if i = j then 1 else 0
  factor : ∀ k i, A (q.perm k) i = ∑ j : Fin n, if j.val ≤ k.val then q.Q i j * q.R j k else 0
  perm : Function.Bijective q.perm
  indep : RowsIndependent A

variable {A q}
variable (F : QRFacts A q)
include F

theorem Q1Q1 : (of (Q1 h q))ᵀ * of (Q1 h q) = 1 := by
  ext i j
  simp only [Matrix.mul_apply, Matrix.transpose_apply, Matrix.of_apply, Q1, F.orth, Matrix.one_apply]
  simp [Fin.ext_iff]

theorem Q2Q2 : (of (Q2 h q))ᵀ * of (Q2 h q) = 1 := by
  ext i j
  simp only [Matrix.mul_apply, Matrix.transpose_apply, Matrix.of_apply, Q2, F.orth, Matrix.one_apply]
  simp [Fin.ext_iff]

theorem Q1Q2 : (of (Q1 h q))ᵀ * of (Q2 h q) = 0 := by
  ext i j
  simp only [Matrix.mul_apply, Matrix.transpose_apply, Matrix.of_apply, Q1, Q2, F.orth, Matrix.zero_apply]
  rw [if_neg]
  simp only [Fin.ext_iff, Fin.val_castLE]
  omega

theorem complete : of (Q1 h q) * (of (Q1 h q))ᵀ + of (Q2 h q) * (of (Q2 h q))ᵀ = 1 := by
  have h1 : (of q.Q)ᵀ * of q.Q = 1 := by
    ext i j
    simp only [Matrix.mul_apply, Matrix.transpose_apply, Matrix.of_apply, F.orth, Matrix.one_apply]
  have h2 : of q.Q * (of q.Q)ᵀ = 1 := mul_eq_one_comm.mp h1
  rw [← h2]
  ext a b
  simp only [Matrix.add_apply, Matrix.mul_apply, Matrix.transpose_apply, Matrix.of_apply]
  rw [sum_split h]
  rfl

theorem A_factor (k : Fin K) (i : Fin n) :
    A (q.perm k) i = ((of (Q1 h q)) * of (RUpper h q)) i k := by
  rw [F.factor, sum_split h]
  have : ∀ j : Fin (n - K), (if (K + j.val) ≤ k.val then
      q.Q i ⟨K + j.val, by omega⟩ * q.R ⟨K + j.val, by omega⟩ k else 0) = 0 := by
    intro j; rw [if_neg]; omega
  simp only [this, Finset.sum_const_zero, add_zero, Matrix.mul_apply, Matrix.of_apply]
  refine Finset.sum_congr rfl fun j _ => ?_
  unfold Q1 RUpper
  by_cases hjk : j ≤ k
  · rw [if_pos hjk, if_pos (by simpa using hjk)]
  · rw [if_neg hjk, if_neg (by simpa using hjk), mul_zero]

omit F in
theorem U_upper (i k : Fin K) (hik : k < i) : RUpper h q i k = 0 := by
  unfold RUpper; rw [if_neg (not_le.mpr hik)]

theorem U_det : (of (RUpper h q)).det ≠ 0 := by
  intro hdet
  obtain ⟨v, hv, hUv⟩ := (Matrix.exists_mulVec_eq_zero_iff (M := of (RUpper h q))).mpr hdet
  apply hv
  have hz : ∀ i, ∑ k, A (q.perm k) i * v k = 0 := by
    intro i
    have : ∑ k, A (q.perm k) i * v k = ((of (Q1 h q) * of (RUpper h q)) *ᵥ v) i := by
      simp only [Matrix.mulVec, dotProduct, A_factor h F]
    rw [this, ← Matrix.mulVec_mulVec, hUv, Matrix.mulVec_zero]; rfl
  let e := Equiv.ofBijective _ F.perm
  have := F.indep (fun k => v (e.symm k)) (fun j => by
    rw [← hz j, ← Equiv.sum_comp e]
    refine Finset.sum_congr rfl fun k _ => ?_
    simp [e])
  funext k
  have := congrFun this (e k)
  simpa using this

theorem U_diag (k : Fin K) : RUpper h q k k ≠ 0 := by
  have hd := U_det h F
  rw [Matrix.det_of_isUpperTriangular (M := of (RUpper h q))
    (fun i j hij => U_upper h i j hij), Finset.prod_ne_zero_iff] at hd
  exact hd k (Finset.mem_univ k)

/-- Null space of `A`: the range of `Q2`. -/
theorem null_iff (d : Fin n → ℝ) :
    (∀ k, ∑ j, A k j * d j = 0) ↔ ∃ y : Fin (n - K) → ℝ, d = of (Q2 h q) *ᵥ y := by
  have hA : ∀ k, ∑ j, A (q.perm k) j * d j = ((of (RUpper h q))ᵀ *ᵥ ((of (Q1 h q))ᵀ *ᵥ d)) k := by
    intro k
    rw [Matrix.mulVec_mulVec, ← Matrix.transpose_mul]
    simp only [Matrix.mulVec, dotProduct, Matrix.transpose_apply, A_factor h F]
  have hall : (∀ k, ∑ j, A k j * d j = 0) ↔ (of (RUpper h q))ᵀ *ᵥ ((of (Q1 h q))ᵀ *ᵥ d) = 0 := by
    constructor
    · intro h'; funext k; rw [← hA]; exact h' _
    · intro h' k
      obtain ⟨k', rfl⟩ := F.perm.2 k
      rw [hA, h']; rfl
  have hdet : ((of (RUpper h q))ᵀ).det ≠ 0 := by rw [Matrix.det_transpose]; exact U_det h F
  rw [hall]
  constructor
  · intro h'
    have h0 : (of (Q1 h q))ᵀ *ᵥ d = 0 := by
      by_contra hne
      exact hdet ((Matrix.exists_mulVec_eq_zero_iff).mp ⟨_, hne, h'⟩)
    refine ⟨(of (Q2 h q))ᵀ *ᵥ d, ?_⟩
    have := congrArg (fun X => X *ᵥ d) (complete h F)
    simp only [Matrix.add_mulVec, Matrix.one_mulVec, ← Matrix.mulVec_mulVec, h0, Matrix.mulVec_zero,
      zero_add] at this
    exact this.symm
  · rintro ⟨y, rfl⟩
    rw [Matrix.mulVec_mulVec y (of (Q1 h q))ᵀ, Q1Q2 h F, Matrix.zero_mulVec, Matrix.mulVec_zero]

theorem Q2_injective (y : Fin (n - K) → ℝ) (hy : of (Q2 h q) *ᵥ y = 0) : y = 0 := by
  have := congrArg (fun v => (of (Q2 h q))ᵀ *ᵥ v) hy
  simpa [Matrix.mulVec_mulVec, Q2Q2 h F] using this

end

/-- `G` as a matrix. -/
def Gmat {N M K : Nat} (p : QP N M K ℝ) : Matrix (Fin N) (Fin N) ℝ := of (Gsym p)

theorem reducedG_eq {n M K : Nat} (p : QP n M K ℝ) (h : K ≤ n) (q : QRResult n K ℝ) :
    of (reducedG p h q) = (of (Q2 h q))ᵀ * Gmat p * of (Q2 h q) := by
  ext i j
  simp only [reducedG, Matrix.mul_apply, Matrix.of_apply, Matrix.transpose_apply, real_dot, symLower_eq, Gmat]

theorem reducedG_symm {n M K : Nat} (p : QP n M K ℝ) (h : K ≤ n) (q : QRResult n K ℝ)
    (i j : Fin (n - K)) : reducedG p h q i j = reducedG p h q j i := by
  have hG : (Gmat p)ᵀ = Gmat p := by ext i j; simp [Gmat, Gsym_comm p i j]
  have : (of (reducedG p h q))ᵀ = of (reducedG p h q) := by
    rw [reducedG_eq]
    simp only [Matrix.transpose_mul, Matrix.transpose_transpose, hG, Matrix.mul_assoc]
  have := congrFun (congrFun this j) i
  simpa using this

theorem symLower_of_symm {m : Nat} (S : Fin m → Fin m → ℝ) (hS : ∀ i j, S i j = S j i) : symLower S = S := by
  funext i j; unfold symLower; split_ifs
  · rfl
  · exact hS j i

theorem quad_Q2 {n M K : Nat} (p : QP n M K ℝ) (h : K ≤ n) (q : QRResult n K ℝ) (y : Fin (n - K) → ℝ) :
    ∑ i, ∑ j, (of (Q2 h q) *ᵥ y) i * Gsym p i j * (of (Q2 h q) *ᵥ y) j
      = ∑ i, ∑ j, y i * reducedG p h q i j * y j := by
  have quad : ∀ {m : Nat} (S : Matrix (Fin m) (Fin m) ℝ) (v : Fin m → ℝ),
      ∑ i, ∑ j, v i * S i j * v j = v ⬝ᵥ (S *ᵥ v) := by
    intro m S v
    simp only [dotProduct, Matrix.mulVec, Finset.mul_sum, mul_assoc]
  have e1 := quad (Gmat p) (of (Q2 h q) *ᵥ y)
  have e2 := quad (of (reducedG p h q)) y
  simp only [Gmat, Matrix.of_apply] at e1 e2
  rw [e1, e2, reducedG_eq, ← Matrix.mulVec_mulVec, ← Matrix.mulVec_mulVec,
    Matrix.dotProduct_mulVec y, Matrix.vecMul_transpose]
  rfl

end MiniOpt.NS
