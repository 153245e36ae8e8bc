import Verif.Spec.DeterminedSpec
import Verif.Props.Coordinates
import Verif.Props.Totality
import Verif.Props.NLSLog

/-!
# C131: problems with equality constraints only are solved without complaint when their linearizations are regular
-/

set_option autoImplicit false

namespace MiniOpt.Props

open MiniOpt MiniOpt.Spec MiniOpt.NLS

variable {n D : Nat}

theorem eqRows_independent {p : Problem D ℝ} {x : Fin n → ℝ} {A : Fin p.K → Fin D → ℝ} {b : Fin p.K → ℝ}
    (hA : ∀ dx : Fin D → ℝ, (List.ofFn fun k => (∑ j, A k j * dx j) + b k) = stackedModel x dx p.eqs)
    (hind : EqualitiesIndependentAt p x) : RowsIndependent A := by
  intro y hy
  obtain ⟨d, hd0⟩ := hind (List.ofFn fun k => y k + b k) (by simp)
  rw [← hA] at hd0
  have hd1 := List.ofFn_injective hd0
  have hd2 : ∀ k, ∑ j, A k j * d j = y k := fun k => by
    have := congrFun hd1 k
    linarith
  have hz : ∑ k, y k ^ 2 = 0 := by
    calc ∑ k, y k ^ 2 = ∑ k, ∑ j, d j * (A k j * y k) := by
          refine Finset.sum_congr rfl fun k _ => ?_
          rw [sq]
          nth_rw 1 [← hd2 k]
          rw [Finset.sum_mul]
          exact Finset.sum_congr rfl fun j _ => by ring
      _ = ∑ j, d j * ∑ k, A k j * y k := by
          rw [Finset.sum_comm]
          exact Finset.sum_congr rfl fun j _ => by rw [Finset.mul_sum]
      _ = 0 := Finset.sum_eq_zero fun j _ => by rw [hy j, mul_zero]
  have := (Finset.sum_eq_zero_iff_of_nonneg fun k _ => sq_nonneg (y k)).mp hz
  funext k
  exact pow_eq_zero_iff (two_ne_zero) |>.mp (this k (Finset.mem_univ k))

/-- A step that the linearized equality constraints do not see. -/
theorem rows_slopes {p : Problem D ℝ} {x : Fin n → ℝ} {q : QPData D p.M p.K ℝ}
    (f3 : ∀ dx : Fin D → ℝ, (List.ofFn fun k => (∑ j, q.A k j * dx j) + q.b k) = stackedModel x dx p.eqs)
    (f4 : List.ofFn q.b = stackedValues x p.eqs) {d : Fin D → ℝ} (hd : ∀ k, ∑ j, q.A k j * d j = 0) :
    ∀ r ∈ p.eqs, ∀ k, slopeAt r x d k = 0 := by
  intro r hr k
  have hm : (valueAt r x k, fun e : Fin D → ℝ => slopeAt r x e k) ∈ eqRows (D := D) x p.eqs :=
    List.mem_flatMap.mpr ⟨r, hr, List.mem_ofFn.mpr ⟨k, rfl⟩⟩
  rw [← rows_of_linearize f3 f4] at hm
  obtain ⟨i, hi⟩ := List.mem_ofFn.mp hm
  have := congrFun (congrArg Prod.snd hi) d
  dsimp only at this
  rw [← this]
  exact hd i

/-- **C131**. A problem with equality constraints and no bounds: if at every point the linearized constraints are independent and only the
zero step leaves the linear models of all costs and constraints unchanged, then `Solve` returns, with a termination state other than
`QP_INDEFINITE`, for all valid parameters - unless one of the user's own functions throws. -/
theorem C131_regular_equalities (env : Env n D ℝ) (hp : WellPosed env.p n) (hr : n = D ∨ env.retraction ≠ none)
    (hi : env.p.ineq = []) (hK : 0 < env.p.K) (hN : NSContract env.NE)
    (hdet : ∀ x : Fin n → ℝ, DeterminedAt env.p x) (hind : ∀ x : Fin n → ℝ, EqualitiesIndependentAt env.p x)
    (prm : NLSParams ℝ) (hprm : NLSParamsValid prm) (hpen : 0 < prm.equalityPenaltyInitial) (x0 : Fin n → ℝ) (o : env.Obj) :
    (∃ o' out calls, solve env prm x0 o = .ok (o', out, calls) ∧ out.termination ≠ .qpIndefinite) ∨
    ∃ o', solve env prm x0 o = .error (.user, o') ∧ UserThrows env := by
  have hne : env.p.eqs ≠ [] := by
    intro h0
    have : env.p.K = 0 := by simp [Problem.K, h0]
    omega
  rcases C65_nls_exceptions env hp hr (fun c hc => by rw [hi] at hc; cases hc) prm hprm hpen x0 o with
    ⟨⟨o', out, calls⟩, h⟩ | ⟨e, h, ht⟩
  · refine .inl ⟨o', out, calls, h, fun hq => ?_⟩
    have := C46_termination env prm x0 o o' out calls h
    rw [hq] at this
    obtain ⟨_, _, _, lam, qp, qp0, pre, s, s', hl, hn⟩ := this
    obtain ⟨-, -, f3, f4, -, f6⟩ := linearize_facts hp hl
    refine (C28_not_posdef_truthful env.NE hN _ s _ hn).1.mp rfl fun d hd hnull => ?_
    have e : ∑ i, ∑ j, d i * Gsym (⟨qp.G, qp.c, qp.A, qp.b, Fin.elim0⟩ : QP D 0 env.p.K ℝ) i j * d j
        = ∑ i, ∑ j, d i * qp.G (max i j) (min i j) * d j := rfl
    rw [e, f6]
    have h0 : ∀ v ∈ env.p.costs.map fun r => ∑ k, slopeAt r o'.vars d k ^ 2, 0 ≤ v := by
      intro v hv
      obtain ⟨r, _, rfl⟩ := List.mem_map.mp hv
      exact Finset.sum_nonneg fun k _ => sq_nonneg _
    have h1 : 0 ≤ max lam 0 * ∑ i, d i ^ 2 :=
      mul_nonneg (le_max_right _ _) (Finset.sum_nonneg fun i _ => sq_nonneg _)
    rcases (List.sum_nonneg h0).lt_or_eq with hpos | hz
    · linarith
    · exfalso
      refine hd (hdet o'.vars d fun r hr k => ?_)
      rcases List.mem_append.mp hr with hc | he
      · have hle := List.single_le_sum h0 _ (List.mem_map_of_mem hc)
        rw [← hz] at hle
        have hs := Finset.single_le_sum (f := fun k => slopeAt r o'.vars d k ^ 2) (fun k _ => sq_nonneg _) (Finset.mem_univ k)
        have : slopeAt r o'.vars d k ^ 2 = 0 := le_antisymm (hs.trans hle) (sq_nonneg _)
        exact pow_eq_zero_iff (two_ne_zero) |>.mp this
      · exact rows_slopes f3 f4 hnull r he k
  · rcases ht with ⟨h1, _⟩ | ⟨_, h2, _⟩ | ⟨_, _, _, hA, hR⟩ | ⟨hu, hu'⟩
    · exact absurd ⟨hi, hne⟩ h1
    · omega
    · exact absurd (eqRows_independent hA (hind _)) (hR hN.qr)
    · obtain ⟨e1, e2⟩ := e
      cases hu
      exact .inr ⟨e2, h, hu'⟩

end MiniOpt.Props
