import Verif.Lemmas.NullSpace
import Verif.Lemmas.Demo
import Mathlib.Analysis.InnerProductSpace.GramSchmidtOrtho
import Mathlib.Analysis.InnerProductSpace.PiL2

/-!
# C26–C28: the null-space solver
-/

set_option autoImplicit false

namespace MiniOpt.Props

open MiniOpt MiniOpt.Spec MiniOpt.IP Matrix

variable {n M K : Nat}

theorem qrFacts {E : NSEigen ℝ} (hE : QRContract E) (h : K ≤ n) (A : Fin K → Fin n → ℝ)
    (hA : RowsIndependent A) : NS.QRFacts A (E.qr A) :=
  ⟨hE.orth A h, hE.factor A h, hE.perm A h, hA⟩

theorem particular_feasible {E : NSEigen ℝ} (hE : NSContract E) (p : QP n M K ℝ) (h : K ≤ n)
    (hA : IndependentRows p) (k : Fin K) : eqVal p (NS.particular E p h (E.qr p.A)) k = 0 := by
  have F := qrFacts hE.qr h p.A hA
  obtain ⟨k', rfl⟩ := F.perm.2 k
  unfold eqVal NS.particular
  set t := E.triSolveTranspose (NS.RUpper h (E.qr p.A)) (fun k => - p.b ((E.qr p.A).perm k)) with ht
  have h1 := hE.tri (NS.RUpper h (E.qr p.A)) (fun k => - p.b ((E.qr p.A).perm k))
    (fun i k hik => NS.U_upper h i k hik) (fun k => NS.U_diag h F k) k'
  rw [← ht] at h1
  have h2 : ∑ j, p.A ((E.qr p.A).perm k') j * matVec (NS.Q1 h (E.qr p.A)) t j
      = ((of (NS.RUpper h (E.qr p.A)))ᵀ *ᵥ t) k' := by
    have e1 : ∀ j, matVec (NS.Q1 h (E.qr p.A)) t j = (of (NS.Q1 h (E.qr p.A)) *ᵥ t) j := fun j => by
      rw [real_matVec]; rfl
    have e2 : ∑ j, p.A ((E.qr p.A).perm k') j * (of (NS.Q1 h (E.qr p.A)) *ᵥ t) j
        = (((of (NS.Q1 h (E.qr p.A))) * of (NS.RUpper h (E.qr p.A)))ᵀ *ᵥ (of (NS.Q1 h (E.qr p.A)) *ᵥ t)) k' := by
      simp only [Matrix.mulVec, dotProduct, Matrix.transpose_apply, NS.A_factor h F]
    simp only [e1, e2]
    rw [Matrix.transpose_mul, Matrix.mulVec_mulVec, Matrix.mul_assoc, NS.Q1Q1 h F, Matrix.mul_one]
  rw [h2]
  have h3 : ((of (NS.RUpper h (E.qr p.A)))ᵀ *ᵥ t) k' = ∑ i, NS.RUpper h (E.qr p.A) i k' * t i := by
    simp only [Matrix.mulVec, dotProduct, Matrix.transpose_apply, Matrix.of_apply]
  rw [h3, h1]; ring

/-- **C27**. The null-space solver refuses problems without equality constraints with an assertion; with
linearly dependent rows (in particular with more rows than variables) it multiplies blocks of mismatched
size, which is undefined behaviour; with independent rows it always returns. -/
theorem C27_needs_independent_rows (E : NSEigen ℝ) (hE : QRContract E) (p : QP n M K ℝ) (st : NSState n ℝ) :
    (K = 0 → ∃ tag, NS.solve E p st = .error (.assertion tag, st)) ∧
    (0 < K → ¬ IndependentRows p → ∃ tag, NS.solve E p st = .error (.ub tag, st)) ∧
    (0 < K → IndependentRows p → K ≤ n ∧ ∃ r, NS.solve E p st = .ok r) ∧
    (n < K → ¬ IndependentRows p) := by
  refine ⟨?_, ?_, ?_, fun h => NS.rows_dependent_of_lt p.A h⟩
  · rintro rfl; exact ⟨"Problem must have at least one equality constraint", by simp [NS.solve]⟩
  · intro hK hdep
    unfold NS.solve
    simp only [hK, not_true, if_false]
    split_ifs with h hr
    · exact ⟨_, rfl⟩
    · exact absurd ((hE.rank p.A h).mp (not_not.mp hr)) hdep
    · exact ⟨_, rfl⟩
  · intro hK hind
    have h : K ≤ n := by
      by_contra hlt
      exact NS.rows_dependent_of_lt p.A (not_le.mp hlt) hind
    refine ⟨h, ?_⟩
    unfold NS.solve
    have hr : (E.qr p.A).rank = K := (hE.rank p.A h).mpr hind
    simp only [hK, not_true, if_false, h, dif_pos, hr, ne_eq]
    split
    · exact ⟨_, rfl⟩
    · exact ⟨_, rfl⟩

/-- Decomposition of a returning `Solve`. -/
theorem ns_ok {E : NSEigen ℝ} {p : QP n M K ℝ} {st : NSState n ℝ}
    {r : NSState n ℝ × NullSpaceTermination} (h : NS.solve E p st = .ok r) :
    ∃ hK : K ≤ n, (E.qr p.A).rank = K ∧
      ((E.llt (symLower (NS.reducedG p hK (E.qr p.A))) = none ∧ r = (st, .notPositiveDefinite)) ∨
       ∃ f, E.llt (symLower (NS.reducedG p hK (E.qr p.A))) = some f ∧
        r = (⟨fun i => NS.particular E p hK (E.qr p.A) i + matVec (NS.Q2 hK (E.qr p.A))
          (f (NS.reducedRhs p hK (E.qr p.A) (NS.particular E p hK (E.qr p.A)))) i⟩, .success)) := by
  unfold NS.solve at h
  by_cases h0 : 0 < K
  · simp only [h0, not_true, if_false] at h
    by_cases hK : K ≤ n
    · simp only [hK, dif_pos] at h
      by_cases hr : (E.qr p.A).rank = K
      · refine ⟨hK, hr, ?_⟩
        simp only [hr, ne_eq, not_true, if_false] at h
        split at h
        · rename_i hl; cases h; exact Or.inl ⟨hl, rfl⟩
        · rename_i f hl; cases h; exact Or.inr ⟨f, hl, rfl⟩
      · simp [hr] at h
    · simp [hK] at h
  · simp [h0] at h

/-- **C28**. With independent rows, `NOT_POSITIVE_DEFINITE` is reported exactly when the Hessian is not
positive definite on the null space of the constraints; the solver's variables are then unchanged. -/
theorem C28_not_posdef_truthful (E : NSEigen ℝ) (hE : NSContract E) (p : QP n M K ℝ) (st : NSState n ℝ)
    (r : NSState n ℝ × NullSpaceTermination) (h : NS.solve E p st = .ok r) :
    (r.2 = .notPositiveDefinite ↔ ¬ PosDefOnNull p) ∧ (r.2 = .notPositiveDefinite → r.1 = st) := by
  obtain ⟨hK, hr, hcase⟩ := ns_ok h
  have hind : IndependentRows p := (hE.qr.rank p.A hK).mp hr
  have F := qrFacts hE.qr hK p.A hind
  have hsym := NS.reducedG_symm p hK (E.qr p.A)
  have hllt := (hE.llt _ (fun i j => by rw [NS.symLower_of_symm _ hsym]; exact hsym i j) :
    (E.llt (symLower (NS.reducedG p hK (E.qr p.A))) = none ↔ _) ∧ _).1
  rw [NS.symLower_of_symm _ hsym] at hllt hcase
  have hiff : (∀ y : Fin (n - K) → ℝ, y ≠ 0 → 0 < ∑ i, ∑ j, y i * NS.reducedG p hK (E.qr p.A) i j * y j)
      ↔ PosDefOnNull p := by
    constructor
    · intro hp d hd hnull
      obtain ⟨y, rfl⟩ := (NS.null_iff hK F d).mp hnull
      rw [NS.quad_Q2]
      apply hp
      rintro rfl; apply hd; simp
    · intro hp y hy
      rw [← NS.quad_Q2]
      exact hp _ (fun h0 => hy (NS.Q2_injective hK F y h0)) ((NS.null_iff hK F _).mpr ⟨y, rfl⟩)
  rw [hiff] at hllt
  rcases hcase with ⟨hn, rfl⟩ | ⟨f, hf, rfl⟩
  · exact ⟨⟨fun _ => hllt.mp hn, fun _ => rfl⟩, fun _ => rfl⟩
  · refine ⟨⟨by simp, fun hnp => ?_⟩, by simp⟩
    rw [hllt.mpr hnp] at hf; cases hf

/-- **C26**. On `SUCCESS` the returned point satisfies every equality constraint and has a strictly smaller
objective than every other point that does. (No assumption that `G` itself is positive definite.) -/
theorem C26_null_space_minimiser (E : NSEigen ℝ) (hE : NSContract E) (p : QP n M K ℝ) (st : NSState n ℝ)
    (r : NSState n ℝ × NullSpaceTermination) (h : NS.solve E p st = .ok r) (hs : r.2 = .success) :
    (∀ k, eqVal p r.1.x k = 0) ∧
    ∀ x', (∀ k, eqVal p x' k = 0) → x' ≠ r.1.x → objective p r.1.x < objective p x' := by
  have hpd : PosDefOnNull p := by
    by_contra hn
    have := (C28_not_posdef_truthful E hE p st r h).1.mpr hn
    rw [hs] at this; cases this
  obtain ⟨hK, hr, hcase⟩ := ns_ok h
  have hind : IndependentRows p := (hE.qr.rank p.A hK).mp hr
  have F := qrFacts hE.qr hK p.A hind
  have hsym := NS.reducedG_symm p hK (E.qr p.A)
  rw [NS.symLower_of_symm _ hsym] at hcase
  rcases hcase with ⟨_, rfl⟩ | ⟨f, hf, rfl⟩
  · cases hs
  simp only
  set q := E.qr p.A with hq
  set u := NS.particular E p hK q with hu
  set y := f (NS.reducedRhs p hK q u) with hy
  have hsolve := (hE.llt _ hsym).2 f hf (NS.reducedRhs p hK q u)
  rw [← hy] at hsolve
  have hx : (fun i => u i + matVec (NS.Q2 hK q) y i) = u + of (NS.Q2 hK q) *ᵥ y := by
    funext i; rw [real_matVec]; rfl
  rw [hx]
  set x := u + of (NS.Q2 hK q) *ᵥ y with hxd
  have hnull : ∀ k, ∑ j, p.A k j * (of (NS.Q2 hK q) *ᵥ y) j = 0 := (NS.null_iff hK F _).mpr ⟨y, rfl⟩
  have hfeas : ∀ k, eqVal p x k = 0 := by
    intro k
    have h1 := particular_feasible hE p hK hind k
    rw [← hq, ← hu] at h1
    unfold eqVal at h1 ⊢
    simp only [hxd, Pi.add_apply, mul_add, Finset.sum_add_distrib, hnull k, add_zero]
    exact h1
  refine ⟨hfeas, fun x' hx' hne => ?_⟩
  -- the difference lies in the null space
  have hdn : NullDir p (x' - x) := by
    intro k
    have h1 := hfeas k
    have h2 := hx' k
    unfold eqVal at h1 h2
    simp only [Pi.sub_apply, mul_sub, Finset.sum_sub_distrib]
    linarith
  obtain ⟨w, hw⟩ := (NS.null_iff hK F _).mp hdn
  have hquad := hpd (x' - x) (sub_ne_zero.mpr hne) hdn
  have hgrad : (of (NS.Q2 hK q))ᵀ *ᵥ (NS.Gmat p *ᵥ x + p.c) = 0 := by
    have e1 : of (NS.reducedG p hK q) *ᵥ y = - ((of (NS.Q2 hK q))ᵀ *ᵥ (p.c + NS.Gmat p *ᵥ u)) := by
      funext i
      have := hsolve i
      have e2 : NS.reducedRhs p hK q u i = - ((of (NS.Q2 hK q))ᵀ *ᵥ (p.c + NS.Gmat p *ᵥ u)) i := by
        unfold NS.reducedRhs
        rw [real_matTVec]
        simp only [real_matVec, symLower_eq]
        rfl
      rw [e2] at this
      exact this
    rw [NS.reducedG_eq] at e1
    rw [hxd, Matrix.mulVec_add (NS.Gmat p)]
    have e3 : (of (NS.Q2 hK q))ᵀ *ᵥ (NS.Gmat p *ᵥ u + NS.Gmat p *ᵥ (of (NS.Q2 hK q) *ᵥ y) + p.c)
        = ((of (NS.Q2 hK q))ᵀ * NS.Gmat p * of (NS.Q2 hK q)) *ᵥ y
          + (of (NS.Q2 hK q))ᵀ *ᵥ (p.c + NS.Gmat p *ᵥ u) := by
      simp only [Matrix.mulVec_add, Matrix.mulVec_mulVec, Matrix.mul_assoc]
      abel
    rw [e3, e1]; simp
  have hlin : ∑ i, ((∑ j, Gsym p i j * x j) + p.c i) * (x' i - x i) = 0 := by
    have e1 : ∑ i, ((∑ j, Gsym p i j * x j) + p.c i) * (x' i - x i)
        = (NS.Gmat p *ᵥ x + p.c) ⬝ᵥ (x' - x) := rfl
    rw [e1, hw, Matrix.dotProduct_mulVec, ← Matrix.mulVec_transpose, hgrad, zero_dotProduct]
  rw [objective_expand p x x', hlin]
  linarith

/-- **C25** for the null-space solver (any arithmetic): only the lower triangle of `G` matters. -/
theorem C25_null_space {α : Type} [Scalar α] (E : NSEigen α) (p : QP n M K α) (G' : Fin n → Fin n → α)
    (h : ∀ i j, j ≤ i → p.G i j = G' i j) (st : NSState n α) :
    NS.solve E { p with G := G' } st = NS.solve E p st := by
  have hG : symLower G' = symLower p.G := by
    funext i j
    unfold symLower
    split_ifs with hij
    · exact (h i j hij).symm
    · exact (h j i (not_le.mp hij).le).symm
  unfold NS.solve NS.reducedG NS.reducedRhs NS.particular
  simp only [hG]

/-! ## The contracts can be met -/

/-- QR by Gram–Schmidt on the rows, padded with zeros, without pivoting. -/
theorem exists_qr {n K : Nat} (h : K ≤ n) (A : Fin K → Fin n → ℝ) :
    ∃ (Q : Fin n → Fin n → ℝ) (R : Fin n → Fin K → ℝ),
      (∀ i j, ∑ a, Q a i * Q a j = if i = j then 1 else 0) ∧
      ∀ k i, A k i = ∑ j : Fin n, if j.val ≤ k.val then Q i j * R j k else 0 := by
  let f : Fin n → EuclideanSpace ℝ (Fin n) := fun j =>
    if hj : j.val < K then WithLp.toLp 2 (A ⟨j.val, hj⟩) else 0
  let b := InnerProductSpace.gramSchmidtOrthonormalBasis (𝕜 := ℝ) (E := EuclideanSpace ℝ (Fin n))
    (by simp) f
  refine ⟨fun i j => b j i, fun j k => inner ℝ (b j) (f (k.castLE h)), ?_, ?_⟩
  · intro i j
    have := b.orthonormal
    rw [orthonormal_iff_ite] at this
    have := this i j
    rw [PiLp.inner_apply] at this
    rw [← this]
    refine Finset.sum_congr rfl fun a _ => ?_
    simp [mul_comm]
  · intro k i
    have h1 := b.sum_repr' (f (k.castLE h))
    have h2 := congrArg (fun v : EuclideanSpace ℝ (Fin n) => v i) h1
    simp only [PiLp.smul_apply, smul_eq_mul, WithLp.ofLp_sum, Finset.sum_apply] at h2
    have h3 : (f (k.castLE h)) i = A k i := by simp [f]
    rw [h3] at h2
    rw [← h2]
    refine Finset.sum_congr rfl fun j _ => ?_
    split_ifs with hjk
    · simp [mul_comm]
    · have : inner ℝ (b j) (f (k.castLE h)) = 0 :=
        InnerProductSpace.gramSchmidtOrthonormalBasis_inv_triangular (by simp) f
          (show k.castLE h < j from by
            rw [Fin.lt_def]; simp only [Fin.val_castLE]; omega)
      simp [this]

open Classical in
/-- An implementation meeting all contracts (nonconstructive). -/
noncomputable def exactNS : NSEigen ℝ where
  qr := fun {n K} A =>
    if h : K ≤ n then
      ⟨(exists_qr h A).choose, (exists_qr h A).choose_spec.choose, id,
        if RowsIndependent A then K else K + 1⟩
    else ⟨fun _ _ => 0, fun _ _ => 0, id, 0⟩
  triSolveTranspose := fun U rhs => ((Matrix.of U)ᵀ)⁻¹ *ᵥ rhs
  llt := fun {m} S =>
    if ∀ y : Fin m → ℝ, y ≠ 0 → 0 < ∑ i, ∑ j, y i * S i j * y j then
      some fun rhs => (Matrix.of S)⁻¹ *ᵥ rhs
    else none

theorem exactNS_contract : NSContract exactNS := by
  refine ⟨⟨?_, ?_, ?_, ?_⟩, ?_, ?_⟩
  · intro n K A h
    simp only [exactNS, h, dif_pos]
    exact (exists_qr h A).choose_spec.choose_spec.1
  · intro n K A h
    simp only [exactNS, h, dif_pos]
    exact (exists_qr h A).choose_spec.choose_spec.2
  · intro n K A h
    simp only [exactNS, h, dif_pos]
    exact Function.bijective_id
  · intro n K A h
    simp only [exactNS, h, dif_pos]
    split_ifs with hi
    · simp [hi]
    · simp [hi]
  · intro K U rhs hU hd k
    simp only [exactNS]
    have hdet : IsUnit ((Matrix.of U)ᵀ).det := by
      rw [Matrix.det_transpose, isUnit_iff_ne_zero,
        Matrix.det_of_isUpperTriangular (M := Matrix.of U) (fun i j hij => hU i j hij),
        Finset.prod_ne_zero_iff]
      exact fun k _ => hd k
    have : ((Matrix.of U)ᵀ *ᵥ (((Matrix.of U)ᵀ)⁻¹ *ᵥ rhs)) k = rhs k := by
      rw [Matrix.mulVec_mulVec, Matrix.mul_nonsing_inv _ hdet, Matrix.one_mulVec]
    exact this
  · intro m S hS
    simp only [exactNS]
    refine ⟨by split_ifs with hp <;> simpa using hp, ?_⟩
    intro f hf rhs i
    split_ifs at hf with hp
    simp only [Option.some.injEq] at hf
    subst hf
    have hdet : IsUnit (Matrix.of S).det := by
      rw [isUnit_iff_ne_zero]
      intro h0
      obtain ⟨v, hv, hSv⟩ := (Matrix.exists_mulVec_eq_zero_iff (M := Matrix.of S)).mpr h0
      have := hp v hv
      have e : ∑ i, ∑ j, v i * S i j * v j = v ⬝ᵥ (Matrix.of S *ᵥ v) := by
        simp only [dotProduct, Matrix.mulVec, Finset.mul_sum, mul_assoc, Matrix.of_apply]
      rw [e, hSv, dotProduct_zero] at this
      exact lt_irrefl _ this
    have : (Matrix.of S *ᵥ ((Matrix.of S)⁻¹ *ᵥ rhs)) i = rhs i := by
      rw [Matrix.mulVec_mulVec, Matrix.mul_nonsing_inv _ hdet, Matrix.one_mulVec]
    exact this

/-- The demo problem (with its inequality ignored) is solved by the null-space solver. -/
example : ∃ r, NS.solve exactNS demoQP ⟨fun _ => 13⟩ = .ok r ∧ r.2 = .success := by
  obtain ⟨_, r, hr⟩ := (C27_needs_independent_rows exactNS exactNS_contract.qr demoQP
    ⟨fun _ => 13⟩).2.2.1 (by norm_num) demo_rows
  refine ⟨r, hr, ?_⟩
  have := (C28_not_posdef_truthful exactNS exactNS_contract demoQP _ r hr).1
  cases hs : r.2 with
  | success => rfl
  | notPositiveDefinite => exact absurd (fun d hd _ => demo_posdef d hd) (this.mp hs)

/-- C28: with the zero matrix as `G` the same constraints give `NOT_POSITIVE_DEFINITE`. -/
example : ∃ r, NS.solve exactNS ({ demoQP with G := fun _ _ => 0 } : QP 2 1 1 ℝ) ⟨fun _ => 13⟩ = .ok r ∧
    r.2 = .notPositiveDefinite := by
  obtain ⟨_, r, hr⟩ := (C27_needs_independent_rows exactNS exactNS_contract.qr ({ demoQP with G := fun _ _ => 0 } : QP 2 1 1 ℝ)
    ⟨fun _ => 13⟩).2.2.1 (by norm_num) demo_rows
  refine ⟨r, hr, (C28_not_posdef_truthful exactNS exactNS_contract _ _ r hr).1.mpr fun h => ?_⟩
  have := h ![1, -1] (fun e => by simpa using congrFun e 0) (by
    intro k
    simp [demoQP, Fin.sum_univ_two])
  simp [Gsym] at this

/-- C27: the constraint `0 = 1` has dependent rows, so the method is undefined for it. -/
example : ∃ tag, NS.solve exactNS ({ demoQP with A := fun _ _ => 0 } : QP 2 1 1 ℝ) ⟨fun _ => 13⟩
    = .error (.ub tag, ⟨fun _ => 13⟩) := by
  refine (C27_needs_independent_rows exactNS exactNS_contract.qr _ _).2.1 (by norm_num) fun h => ?_
  have := h (fun _ => 1) (by intro j; simp)
  simpa using congrFun this 0

end MiniOpt.Props
