import Verif.Lemmas.EigenQR
import Mathlib.LinearAlgebra.Matrix.Block

/-!
# The column-pivoting QR factorisation meets its contract (exact arithmetic)
-/

set_option autoImplicit false

namespace MiniOpt.QR

open MiniOpt MiniOpt.Spec

variable {n K : Nat}

/-- The finished columns. -/
noncomputable def pivots (dd : ℝ) (A : Fin K → Fin n → ℝ) : List (Pivot n (Fin K) ℝ) :=
  steps 0 dd K 0 (List.finRange K) ⟨A, fun k => norm2 (A k), fun k => norm2 (A k)⟩

theorem norm2_real (x : Fin n → ℝ) : norm2 x = Real.sqrt (∑ i, x i * x i) := by
  unfold norm2 squaredNorm dot
  rw [real_sqrt, real_sum, List.sum_ofFn]

theorem tailSq_all (x : Fin n → ℝ) : tailSq 0 x = ∑ i, x i * x i := by
  unfold tailSq
  exact Finset.sum_congr rfl fun i _ => if_pos (Nat.zero_le _)

section
variable (dd : ℝ) (h : K ≤ n) (A : Fin K → Fin n → ℝ)
include h

theorem pivots_spec : ((pivots dd A).map (·.id)).Perm (List.finRange K) ∧ (∀ p ∈ pivots dd A, p.refl.Good) ∧
    ∀ (j : Nat) (p : Pivot n (Fin K) ℝ), (pivots dd A)[j]? = some p → p.refl.k.val = j ∧ p.norm = |p.R p.refl.k| ∧
      ∀ i, run (pivots dd A) (A p.id) i = if i.val ≤ j then p.R i else 0 := by
  have := steps_spec dd K 0 (List.finRange K) (⟨A, fun k => norm2 (A k), fun k => norm2 (A k)⟩ : Cols n (Fin K) ℝ)
    (List.length_finRange) (List.nodup_finRange K) (by omega) (fun j _ => by
      show norm2 (A j) = Real.sqrt (tailSq 0 (A j))
      rw [norm2_real, tailSq_all])
  refine ⟨this.1, this.2.1, fun j p hp => ?_⟩
  have h3 := this.2.2 j p hp
  rw [Nat.zero_add] at h3
  exact h3

theorem pivots_length : (pivots dd A).length = K := by
  have := (pivots_spec dd h A).1.length_eq
  simpa using this

/-- The `k`-th finished column. -/
noncomputable def piv (k : Fin K) : Pivot n (Fin K) ℝ := (pivots dd A)[k.val]'(by rw [pivots_length dd h A]; exact k.isLt)

theorem piv_get (k : Fin K) : (pivots dd A)[k.val]? = some (piv dd h A k) := List.getElem?_eq_getElem _

theorem piv_mem (k : Fin K) : piv dd h A k ∈ pivots dd A := List.getElem_mem _

theorem mem_piv {p : Pivot n (Fin K) ℝ} (hp : p ∈ pivots dd A) : ∃ k, p = piv dd h A k := by
  obtain ⟨j, hj, e⟩ := List.getElem_of_mem hp
  exact ⟨⟨j, by rw [pivots_length dd h A] at hj; exact hj⟩, e.symm⟩

theorem qr_perm (eps : ℝ) (k : Fin K) : (colPivQR eps 0 dd A).perm k = (piv dd h A k).id := by
  have e := piv_get dd h A k
  unfold pivots at e
  unfold colPivQR
  dsimp only
  rw [e]

theorem qr_R (eps : ℝ) (a : Fin n) (k : Fin K) : (colPivQR eps 0 dd A).R a k = (piv dd h A k).R a := by
  have e := piv_get dd h A k
  unfold pivots at e
  unfold colPivQR
  dsimp only
  rw [e]

end

theorem qr_Q (eps dd : ℝ) (A : Fin K → Fin n → ℝ) (a i : Fin n) :
    (colPivQR eps 0 dd A).Q a i = ((pivots dd A).map (·.refl)).foldr Refl.apply (fun b => if b = i then 1 else 0) a := rfl

theorem unrun_linear {ι : Type} {m : Nat} (c : Fin m → ℝ) (x : Fin m → Fin n → ℝ) : ∀ (ps : List (Pivot n ι ℝ)) (i : Fin n),
    (ps.map (·.refl)).foldr Refl.apply (fun i => ∑ j, x j i * c j) i = ∑ j, (ps.map (·.refl)).foldr Refl.apply (x j) i * c j
  | [], _ => rfl
  | p :: ps, i => by
    simp only [List.map_cons, List.foldr_cons]
    rw [← apply_linear]
    congr 1
    funext l
    exact unrun_linear c x ps l

theorem unrun_dot {ι : Type} : ∀ (ps : List (Pivot n ι ℝ)), (∀ p ∈ ps, p.refl.Good) → ∀ x y : Fin n → ℝ,
    ∑ i, (ps.map (·.refl)).foldr Refl.apply x i * (ps.map (·.refl)).foldr Refl.apply y i = ∑ i, x i * y i
  | [], _, _, _ => rfl
  | p :: ps, h, x, y => by
    simp only [List.map_cons, List.foldr_cons]
    rw [apply_dot (h p (by simp)), unrun_dot ps fun q hq => h q (by simp [hq])]

/-- Applying `Q`. -/
theorem Q_apply (eps dd : ℝ) (A : Fin K → Fin n → ℝ) (x : Fin n → ℝ) (i : Fin n) :
    ((pivots dd A).map (·.refl)).foldr Refl.apply x i = ∑ j, (colPivQR eps 0 dd A).Q i j * x j := by
  have e : x = fun i => ∑ j, (fun b => if b = j then (1 : ℝ) else 0) i * x j := by
    funext i; simp
  conv_lhs => rw [e]
  exact unrun_linear x (fun j b => if b = j then (1 : ℝ) else 0) (pivots dd A) i

theorem qr_orth (eps dd : ℝ) (h : K ≤ n) (A : Fin K → Fin n → ℝ) (i j : Fin n) :
    ∑ a, (colPivQR eps 0 dd A).Q a i * (colPivQR eps 0 dd A).Q a j = if i = j then 1 else 0 := by
  simp_rw [qr_Q]
  rw [unrun_dot _ (pivots_spec dd h A).2.1]
  simp [eq_comm]

theorem qr_factor (eps dd : ℝ) (h : K ≤ n) (A : Fin K → Fin n → ℝ) (k : Fin K) (i : Fin n) :
    A ((colPivQR eps 0 dd A).perm k) i
      = ∑ j : Fin n, if j.val ≤ k.val then (colPivQR eps 0 dd A).Q i j * (colPivQR eps 0 dd A).R j k else 0 := by
  obtain ⟨h1, h2, h3⟩ := pivots_spec dd h A
  have hr := (h3 k.val (piv dd h A k) (piv_get dd h A k)).2.2
  rw [qr_perm dd h A]
  have e := congrFun (unrun (pivots dd A) h2 (A (piv dd h A k).id)) i
  rw [← e, Q_apply eps]
  refine Finset.sum_congr rfl fun j _ => ?_
  rw [hr j, qr_R dd h A]
  split_ifs <;> ring

theorem qr_bijective (eps dd : ℝ) (h : K ≤ n) (A : Fin K → Fin n → ℝ) : Function.Bijective (colPivQR eps 0 dd A).perm := by
  refine Finite.injective_iff_bijective.mp fun i j hij => ?_
  rw [qr_perm dd h A, qr_perm dd h A] at hij
  have hnd : ((pivots dd A).map (·.id)).Nodup := (pivots_spec dd h A).1.nodup_iff.mpr (List.nodup_finRange K)
  have hl := pivots_length dd h A
  have := (List.Nodup.getElem_inj_iff hnd (i := i.val) (j := j.val) (hi := by simp [hl]) (hj := by simp [hl])).mp (by
    simpa [piv] using hij)
  exact Fin.ext this

/-- The diagonal of `R`. -/
noncomputable def diag (dd : ℝ) (h : K ≤ n) (A : Fin K → Fin n → ℝ) (k : Fin K) : ℝ := (piv dd h A k).R (k.castLE h)

theorem diag_eq (dd : ℝ) (h : K ≤ n) (A : Fin K → Fin n → ℝ) (k : Fin K) :
    (piv dd h A k).R (piv dd h A k).refl.k = diag dd h A k := by
  have := ((pivots_spec dd h A).2.2 k.val _ (piv_get dd h A k)).1
  rw [diag]
  congr 1
  exact Fin.ext this

theorem piv_norm (dd : ℝ) (h : K ≤ n) (A : Fin K → Fin n → ℝ) (k : Fin K) : (piv dd h A k).norm = |diag dd h A k| := by
  rw [((pivots_spec dd h A).2.2 k.val _ (piv_get dd h A k)).2.1, diag_eq]

/-- The upper triangular factor, square. -/
noncomputable def upper (dd : ℝ) (h : K ≤ n) (A : Fin K → Fin n → ℝ) : Fin K → Fin K → ℝ :=
  fun j k => if j ≤ k then (piv dd h A k).R (j.castLE h) else 0

theorem upper_diag (dd : ℝ) (h : K ≤ n) (A : Fin K → Fin n → ℝ) (k : Fin K) : upper dd h A k k = diag dd h A k := by
  simp [upper, diag]

/-- `A` in terms of the leading columns of `Q` and the square factor. -/
theorem factor_square (dd : ℝ) (h : K ≤ n) (A : Fin K → Fin n → ℝ) (k : Fin K) (i : Fin n) :
    A (piv dd h A k).id i = ∑ j : Fin K, (colPivQR 0 0 dd A).Q i (j.castLE h) * upper dd h A j k := by
  rw [← qr_perm dd h A 0, qr_factor 0 dd h A k i]
  have hemb : ∑ j : Fin K, (colPivQR 0 0 dd A).Q i (j.castLE h) * upper dd h A j k
      = ∑ j ∈ Finset.univ.map (Fin.castLEEmb h), if j.val ≤ k.val then (colPivQR 0 0 dd A).Q i j * (colPivQR 0 0 dd A).R j k else 0 := by
    rw [Finset.sum_map]
    refine Finset.sum_congr rfl fun j _ => ?_
    simp only [Fin.castLEEmb_apply, Fin.val_castLE, upper, qr_R dd h A, Fin.le_def]
    split_ifs <;> simp
  rw [hemb]
  symm
  refine Finset.sum_subset (Finset.subset_univ _) fun j _ hj => if_neg fun hle => hj ?_
  rw [Finset.mem_map]
  exact ⟨⟨j.val, lt_of_le_of_lt hle k.isLt⟩, Finset.mem_univ _, Fin.ext rfl⟩

/-- Lengths of combinations of the rows of `A`. -/
theorem combination_sq (dd : ℝ) (h : K ≤ n) (A : Fin K → Fin n → ℝ) (z : Fin K → ℝ) :
    ∑ i, (∑ k, A (piv dd h A k).id i * z k) * (∑ k, A (piv dd h A k).id i * z k)
      = ∑ j, (∑ k, upper dd h A j k * z k) * (∑ k, upper dd h A j k * z k) := by
  have e : ∀ i, ∑ k, A (piv dd h A k).id i * z k
      = ∑ j : Fin K, (colPivQR 0 0 dd A).Q i (j.castLE h) * ∑ k, upper dd h A j k * z k := fun i => by
    simp_rw [factor_square dd h A, Finset.sum_mul, Finset.mul_sum]
    rw [Finset.sum_comm]
    exact Finset.sum_congr rfl fun j _ => Finset.sum_congr rfl fun k _ => by ring
  simp_rw [e]
  generalize (fun j => ∑ k, upper dd h A j k * z k) = u
  have e2 : ∀ u : Fin K → ℝ, ∑ i, (∑ j : Fin K, (colPivQR 0 0 dd A).Q i (j.castLE h) * u j)
      * (∑ j : Fin K, (colPivQR 0 0 dd A).Q i (j.castLE h) * u j) = ∑ j, u j * u j := fun u => by
    simp_rw [Finset.sum_mul_sum]
    rw [Finset.sum_comm]
    refine Finset.sum_congr rfl fun j _ => ?_
    rw [Finset.sum_comm]
    have e3 : ∀ l : Fin K, ∑ i, (colPivQR 0 0 dd A).Q i (j.castLE h) * u j * ((colPivQR 0 0 dd A).Q i (l.castLE h) * u l)
        = if l = j then u j * u l else 0 := fun l => by
      have h1 := qr_orth 0 dd h A (j.castLE h) (l.castLE h)
      have h2 : ∑ i, (colPivQR 0 0 dd A).Q i (j.castLE h) * u j * ((colPivQR 0 0 dd A).Q i (l.castLE h) * u l)
          = (∑ i, (colPivQR 0 0 dd A).Q i (j.castLE h) * (colPivQR 0 0 dd A).Q i (l.castLE h)) * (u j * u l) := by
        rw [Finset.sum_mul]
        exact Finset.sum_congr rfl fun i _ => by ring
      rw [h2, h1]
      by_cases hl : l = j
      · subst hl; simp
      · have : ¬ j.castLE h = l.castLE h := fun e => hl (Fin.castLE_injective h e).symm
        rw [if_neg this, if_neg hl, zero_mul]
    rw [Finset.sum_congr rfl fun l _ => e3 l, Finset.sum_ite_eq' Finset.univ j, if_pos (Finset.mem_univ _)]
  exact e2 _

/-- The diagonal is free of zeros exactly if the rows are independent. -/
theorem diag_iff (dd : ℝ) (h : K ≤ n) (A : Fin K → Fin n → ℝ) : (∀ k, diag dd h A k ≠ 0) ↔ RowsIndependent A := by
  have hbij := qr_bijective 0 dd h A
  have hid : ∀ k, (piv dd h A k).id = (Equiv.ofBijective _ hbij) k := fun k => by
    rw [Equiv.ofBijective_apply, qr_perm dd h A]
  set σ := Equiv.ofBijective _ hbij with hσ
  have hcomb : ∀ y : Fin K → ℝ, (∀ j, ∑ k, A k j * y k = 0) ↔ ∀ j, ∑ k, upper dd h A j k * y (σ k) = 0 := fun y => by
    have hs := combination_sq dd h A fun k => y (σ k)
    have hre : ∀ i, ∑ k, A (piv dd h A k).id i * y (σ k) = ∑ k, A k i * y k := fun i => by
      simp_rw [hid]
      exact Equiv.sum_comp σ fun k => A k i * y k
    simp_rw [hre] at hs
    have hz : ∀ {m : Nat} (f : Fin m → ℝ), ∑ i, f i * f i = 0 ↔ ∀ i, f i = 0 := fun f => by
      rw [Finset.sum_eq_zero_iff_of_nonneg fun i _ => mul_self_nonneg _]
      exact ⟨fun h i => mul_self_eq_zero.mp (h i (Finset.mem_univ i)), fun h i _ => by rw [h i, zero_mul]⟩
    rw [← hz, ← hz, hs]
  have hdet : (Matrix.of (upper dd h A)).det = ∏ k, diag dd h A k := by
    rw [Matrix.det_of_isUpperTriangular (M := Matrix.of (upper dd h A)) (fun i j hij => if_neg (not_le.mpr hij))]
    exact Finset.prod_congr rfl fun k _ => upper_diag dd h A k
  have h1 : (∀ k, diag dd h A k ≠ 0) ↔ (Matrix.of (upper dd h A)).det ≠ 0 := by
    rw [hdet, Finset.prod_ne_zero_iff]
    simp
  rw [h1, ← not_iff_not, not_not, ← Matrix.exists_mulVec_eq_zero_iff]
  constructor
  · rintro ⟨v, hv, hz⟩ hind
    refine hv ?_
    have := hind (fun k => v (σ.symm k)) ((hcomb _).mpr fun j => by
      have := congrFun hz j
      simpa [Matrix.mulVec, dotProduct] using this)
    funext k
    have := congrFun this (σ k)
    simpa using this
  · intro hn
    unfold RowsIndependent at hn
    push Not at hn
    obtain ⟨y, hy, hy0⟩ := hn
    refine ⟨fun k => y (σ k), fun e => hy0 ?_, ?_⟩
    · funext k
      have := congrFun e (σ.symm k)
      simpa using this
    · funext j
      exact (hcomb y).mp hy j

end MiniOpt.QR
