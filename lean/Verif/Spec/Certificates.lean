import Verif.Spec.QPSpec

/-!
# Certificates of infeasibility and of unboundedness (exact arithmetic)

Textbook notions, from the problem data only.
-/

set_option autoImplicit false

namespace MiniOpt.Spec

open MiniOpt

variable {N M K : Nat}

/-- Farkas certificate: a combination of the constraints, with non-negative weights `v` on the inequalities and any weights
`w` on the equalities, in which the variables cancel and the constants add up to `-δ`. -/
structure FarkasCertificate (p : QP N M K ℝ) (w : Fin K → ℝ) (v : Fin M → ℝ) (δ : ℝ) : Prop where
  nonneg : ∀ m, 0 ≤ v m
  cancel : ∀ x : Fin N → ℝ, (∑ k, w k * ∑ j, p.A k j * x j) + ∑ m, v m * ((p.con m).a * x (p.con m).var) = 0
  const : (∑ k, w k * p.b k) + ∑ m, v m * (p.con m).b = -δ

/-- A direction along which every constraint keeps holding and the objective falls at the constant rate `δ`. -/
structure DescentRay (p : QP N M K ℝ) (d : Fin N → ℝ) (δ : ℝ) : Prop where
  flat : ∀ i, ∑ j, Gsym p i j * d j = 0
  eqs : ∀ k, ∑ j, p.A k j * d j = 0
  ineqs : ∀ m, 0 ≤ (p.con m).a * d (p.con m).var
  falls : ∑ i, p.c i * d i = -δ

/-- The constraints combined with the weights of a certificate. -/
theorem FarkasCertificate.combined {p : QP N M K ℝ} {w : Fin K → ℝ} {v : Fin M → ℝ} {δ : ℝ}
    (h : FarkasCertificate p w v δ) (x : Fin N → ℝ) :
    (∑ k, w k * eqVal p x k) + ∑ m, v m * ineqVal p x m = -δ := by
  have h1 := h.cancel x
  have h2 := h.const
  unfold eqVal ineqVal
  simp only [mul_add, Finset.sum_add_distrib] at h1 ⊢
  linarith

/-- A problem with a certificate has no feasible point. -/
theorem FarkasCertificate.infeasible {p : QP N M K ℝ} {w : Fin K → ℝ} {v : Fin M → ℝ} {δ : ℝ}
    (h : FarkasCertificate p w v δ) (hδ : 0 < δ) (x : Fin N → ℝ) : ¬ Feasible p x := by
  rintro ⟨h1, h2⟩
  have hc := h.combined x
  simp only [h2, mul_zero, Finset.sum_const_zero, zero_add] at hc
  have : 0 ≤ ∑ m, v m * ineqVal p x m := Finset.sum_nonneg fun m _ => mul_nonneg (h.nonneg m) (h1 m)
  linarith

/-- A problem with a descent ray and a feasible point is unbounded below. -/
theorem DescentRay.unbounded {p : QP N M K ℝ} {d : Fin N → ℝ} {δ : ℝ} (h : DescentRay p d δ) (hδ : 0 < δ)
    (x : Fin N → ℝ) (hx : Feasible p x) (B : ℝ) : ∃ y, Feasible p y ∧ objective p y < B := by
  have hsym : ∀ i j, Gsym p i j = Gsym p j i := fun i j => by unfold Gsym; rw [max_comm, min_comm]
  have hq : ∀ t : ℝ, objective p (fun i => x i + t * d i) = objective p x - t * δ := by
    intro t
    have e1 : ∀ i, ∑ j, Gsym p i j * (x j + t * d j) = ∑ j, Gsym p i j * x j := by
      intro i
      have : ∀ j, Gsym p i j * (x j + t * d j) = Gsym p i j * x j + t * (Gsym p i j * d j) := fun j => by ring
      simp only [this, Finset.sum_add_distrib, ← Finset.mul_sum, h.flat i, mul_zero, add_zero]
    have e2 : ∑ i, d i * ∑ j, Gsym p i j * x j = 0 := by
      simp only [Finset.mul_sum]
      rw [Finset.sum_comm]
      refine Finset.sum_eq_zero fun j _ => ?_
      have : ∀ i, d i * (Gsym p i j * x j) = x j * (Gsym p j i * d i) := fun i => by rw [hsym i j]; ring
      simp only [this, ← Finset.mul_sum, h.flat j, mul_zero]
    have e3 : ∀ y : Fin N → ℝ, ∑ i, ∑ j, y i * Gsym p i j * y j = ∑ i, y i * ∑ j, Gsym p i j * y j := by
      intro y
      refine Finset.sum_congr rfl fun i _ => ?_
      rw [Finset.mul_sum]
      exact Finset.sum_congr rfl fun j _ => by ring
    unfold objective
    rw [e3, e3]
    simp only [e1]
    simp only [add_mul, mul_add, Finset.sum_add_distrib, mul_assoc, ← Finset.mul_sum, e2]
    have : ∀ i, p.c i * (t * d i) = t * (p.c i * d i) := fun i => by ring
    simp only [this, ← Finset.mul_sum, h.falls]
    ring
  obtain ⟨t, ht0, ht⟩ : ∃ t : ℝ, 0 ≤ t ∧ objective p x - B < t * δ := by
    refine ⟨(|objective p x - B| + 1) / δ, by positivity, ?_⟩
    rw [div_mul_cancel₀ _ hδ.ne']
    linarith [le_abs_self (objective p x - B)]
  refine ⟨fun i => x i + t * d i, ⟨fun m => ?_, fun k => ?_⟩, by rw [hq]; linarith⟩
  · have h1 := hx.1 m
    have h2 := mul_nonneg ht0 (h.ineqs m)
    unfold ineqVal at h1 ⊢
    nlinarith
  · have h1 := hx.2 k
    unfold eqVal at h1 ⊢
    have : ∀ j, p.A k j * (x j + t * d j) = p.A k j * x j + t * (p.A k j * d j) := fun j => by ring
    simp only [this, Finset.sum_add_distrib, ← Finset.mul_sum, h.eqs k, mul_zero, add_zero]
    exact h1

end MiniOpt.Spec
