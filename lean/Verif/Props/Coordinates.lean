import Verif.Spec.CoordinateSpec
import Verif.Props.NLSUnconstrained
import Verif.Props.NLSNullSpace
import Verif.Props.NLSOrder

/-!
# A solve does not depend on the coordinates (exact arithmetic)
-/

set_option autoImplicit false

namespace MiniOpt.Props

open MiniOpt.Spec MiniOpt.NLS

section sums

theorem ofFn_sums {a b : Nat} (f f2 : Fin a → ℝ) (g g2 : Fin b → ℝ) (h : List.ofFn f = List.ofFn g)
    (h2 : List.ofFn f2 = List.ofFn g2) (F : ℝ → ℝ → ℝ) : ∑ k, F (f k) (f2 k) = ∑ k, F (g k) (g2 k) := by
  have e : a = b := by have := congrArg List.length h; simpa using this
  subst e
  rw [List.ofFn_injective h, List.ofFn_injective h2]

theorem ofFn_sum {a b : Nat} (f : Fin a → ℝ) (g : Fin b → ℝ) (h : List.ofFn f = List.ofFn g) (F : ℝ → ℝ) :
    ∑ k, F (f k) = ∑ k, F (g k) := ofFn_sums f f g g h h fun u _ => F u

theorem ofFn_all {a b : Nat} (f : Fin a → ℝ) (g : Fin b → ℝ) (h : List.ofFn f = List.ofFn g) (P : ℝ → Prop) :
    (∀ k, P (f k)) ↔ ∀ k, P (g k) := by
  have e : a = b := by have := congrArg List.length h; simpa using this
  subst e
  rw [List.ofFn_injective h]

theorem ofFn_all2 {a b : Nat} (f f2 : Fin a → ℝ) (g g2 : Fin b → ℝ) (h : List.ofFn f = List.ofFn g)
    (h2 : List.ofFn f2 = List.ofFn g2) (P : ℝ → ℝ → Prop) : (∀ k, P (f k) (f2 k)) ↔ ∀ k, P (g k) (g2 k) := by
  have e : a = b := by have := congrArg List.length h; simpa using this
  subst e
  rw [List.ofFn_injective h, List.ofFn_injective h2]

theorem ofFn_add {a b : Nat} (f f2 : Fin a → ℝ) (g g2 : Fin b → ℝ) (h : List.ofFn f = List.ofFn g)
    (h2 : List.ofFn f2 = List.ofFn g2) : (List.ofFn fun k => f k + f2 k) = List.ofFn fun k => g k + g2 k := by
  have e : a = b := by have := congrArg List.length h; simpa using this
  subst e
  rw [List.ofFn_injective h, List.ofFn_injective h2]

theorem forall2_sum {β : Type} {R : β → β → Prop} {l l' : List β} (h : List.Forall₂ R l l') (f g : β → ℝ)
    (hf : ∀ r r', R r r' → f r = g r') : (l.map f).sum = (l'.map g).sum := by
  induction h with
  | nil => rfl
  | cons h1 _ ih => simp only [List.map_cons, List.sum_cons, hf _ _ h1, ih]

end sums

variable {n m D : Nat} {T : (Fin m → ℝ) → Fin n → ℝ} {A : (Fin m → ℝ) → (Fin D → ℝ) ≃ₗ[ℝ] (Fin D → ℝ)}

section residuals

theorem same_model {r r' : Residual ℝ} (h : SameResidual D T A r r') (y : Fin m → ℝ) (e : Fin D → ℝ) :
    List.ofFn (linAt r' y e) = List.ofFn (linAt r (T y) (A y e)) :=
  ofFn_add _ _ _ _ (h.value y) (h.slope y e)

theorem same_values {l l' : List (Residual ℝ)} (h : List.Forall₂ (SameResidual D T A) l l') (y : Fin m → ℝ) :
    stackedValues y l' = stackedValues (T y) l := by
  induction h with
  | nil => rfl
  | cons h1 _ ih => simp only [stackedValues, h1.value y, ih]

theorem same_models {l l' : List (Residual ℝ)} (h : List.Forall₂ (SameResidual D T A) l l') (y : Fin m → ℝ)
    (e : Fin D → ℝ) : stackedModel y e l' = stackedModel (T y) (A y e) l := by
  induction h with
  | nil => rfl
  | cons h1 _ ih => simp only [stackedModel, same_model h1 y e, ih]

/-- The rows of the linearized constraints: value and slope of each. -/
noncomputable def eqRows {n : Nat} (x : Fin n → ℝ) (l : List (Residual ℝ)) : List (ℝ × ((Fin D → ℝ) → ℝ)) :=
  l.flatMap fun r => List.ofFn fun k => (valueAt r x k, fun e : Fin D → ℝ => slopeAt r x e k)

theorem rows_ext {X : Type} {l l' : List (ℝ × (X → ℝ))} (h1 : l.map Prod.fst = l'.map Prod.fst)
    (h2 : ∀ e, l.map (fun p => p.2 e) = l'.map fun p => p.2 e) : l = l' := by
  have hlen : l.length = l'.length := by have := congrArg List.length h1; simpa using this
  refine List.ext_getElem hlen fun i hi hi' => Prod.ext ?_ (funext fun e => ?_)
  · have := List.getElem_of_eq h1 (by simpa using hi)
    simpa using this
  · have := List.getElem_of_eq (h2 e) (by simpa using hi)
    simpa using this

theorem rows_values {n : Nat} (x : Fin n → ℝ) (l : List (Residual ℝ)) :
    (eqRows (D := D) x l).map Prod.fst = stackedValues x l := by
  induction l with
  | nil => rfl
  | cons r l ih =>
    unfold eqRows at ih ⊢
    rw [List.flatMap_cons, List.map_append, ih, stackedValues, List.map_ofFn]
    rfl

theorem rows_model {n : Nat} (x : Fin n → ℝ) (e : Fin D → ℝ) (l : List (Residual ℝ)) :
    (eqRows x l).map (fun p => p.1 + p.2 e) = stackedModel x e l := by
  induction l with
  | nil => rfl
  | cons r l ih =>
    unfold eqRows at ih ⊢
    rw [List.flatMap_cons, List.map_append, ih, stackedModel, List.map_ofFn]
    rfl

theorem map_add_cancel {X : Type} {l l' : List X} {f g : X → ℝ} (h1 : l.map f = l'.map f)
    (h2 : l.map (fun p => f p + g p) = l'.map fun p => f p + g p) : l.map g = l'.map g := by
  have hlen : l.length = l'.length := by have := congrArg List.length h1; simpa using this
  refine List.ext_getElem (by simpa using hlen) fun i hi hi' => ?_
  have e1 := List.getElem_of_eq h1 (by simpa using hi)
  have e2 := List.getElem_of_eq h2 (by simpa using hi)
  simp only [List.getElem_map] at e1 e2 ⊢
  linarith

theorem rows_same {l l' : List (Residual ℝ)} (h : List.Forall₂ (SameResidual D T A) l l') (y : Fin m → ℝ) :
    eqRows y l' = (eqRows (T y) l).map fun p => (p.1, fun e => p.2 (A y e)) := by
  have hv : (eqRows (D := D) y l').map Prod.fst = ((eqRows (T y) l).map fun p => (p.1, fun e => p.2 (A y e))).map Prod.fst := by
    rw [rows_values, same_values h, List.map_map, ← rows_values (D := D)]
    rfl
  refine rows_ext hv fun e => map_add_cancel hv ?_
  rw [rows_model, same_models h, List.map_map, ← rows_model]
  rfl

theorem perm_sum {β : Type} {l l' : List β} (h : l.Perm l') (f : β → ℝ) : (l.map f).sum = (l'.map f).sum := (h.map f).sum_eq

theorem same_sum {l l' : List (Residual ℝ)} (h : SameResiduals D T A l l') (f g : Residual ℝ → ℝ)
    (hf : ∀ r r', SameResidual D T A r r' → f r = g r') : (l.map f).sum = (l'.map g).sum := by
  obtain ⟨l1, h1, h2⟩ := h
  rw [forall2_sum h1 f g hf, perm_sum h2]

theorem same_errors {env : Env n D ℝ} {env' : Env m D ℝ} (h : SameProblem env env' T A) (y : Fin m → ℝ) :
    errorsAt env'.p y = errorsAt env.p (T y) := by
  unfold errorsAt
  congr 1
  · rw [costAt_real, costAt_real]
    refine (same_sum h.costs _ _ fun r r' hr => ?_).symm
    exact (congrArg (fun u => 1 / 2 * u) (ofFn_sum _ _ (hr.value y) fun u => u ^ 2)).symm
  · rw [violationAt_real, violationAt_real]
    exact (same_sum h.eqs _ _ fun r r' hr => (ofFn_sum _ _ (hr.value y) fun u => |u|).symm).symm

theorem same_regular {env : Env n D ℝ} {env' : Env m D ℝ} (h : SameProblem env env' T A) (y : Fin m → ℝ)
    (hr : RegularAt env.p (T y)) : RegularAt env'.p y := by
  intro e he
  have : A y e = 0 := by
    refine hr _ ?_
    obtain ⟨l1, hc, hperm⟩ := h.costs
    have he : ∀ r ∈ l1, ∀ k, slopeAt r y e k = 0 := fun r hr => he r (hperm.mem_iff.mp hr)
    revert he
    clear hperm
    generalize env.p.costs = l at hc ⊢
    induction hc with
    | nil => intro _ r hr; cases hr
    | @cons r r' l l' h1 _ ih =>
      intro he s hs
      rcases List.mem_cons.mp hs with rfl | hs
      · exact (ofFn_all _ _ (h1.slope y e) fun u => u = 0).mp (he r' (by simp))
      · exact ih (fun q hq => he q (by simp [hq])) s hs
  exact (A y).map_eq_zero_iff.mp this

end residuals

/-! ## The linearised problems -/

/-- The equality constraints of two quadratic problems related by `d = B e`, in any order. -/
def SameRows {M K M' K' : Nat} (B : (Fin D → ℝ) ≃ₗ[ℝ] (Fin D → ℝ)) (q : QPData D M K ℝ) (q' : QPData D M' K' ℝ) : Prop :=
  ∃ τ : Fin K' ≃ Fin K, (∀ k, q'.b k = q.b (τ k)) ∧ ∀ k (e : Fin D → ℝ), ∑ j, q'.A k j * e j = ∑ j, q.A (τ k) j * B e j

/-- Two quadratic problems related by `d = B e`. -/
structure Twin {M K M' K' : Nat} (B : (Fin D → ℝ) ≃ₗ[ℝ] (Fin D → ℝ)) (q : QPData D M K ℝ) (q' : QPData D M' K' ℝ) : Prop where
  c : ∀ e : Fin D → ℝ, ∑ i, q'.c i * e i = ∑ i, q.c i * B e i
  quad : ∀ e : Fin D → ℝ, (∑ i, ∑ j, e i * q'.G (max i j) (min i j) * e j)
    = ∑ i, ∑ j, B e i * q.G (max i j) (min i j) * B e j
  rows : SameRows B q q'

/-- The rows of the quadratic problem that a linearization fills in. -/
theorem rows_of_linearize {n : Nat} {p : Problem D ℝ} {x : Fin n → ℝ} {q : QPData D p.M p.K ℝ}
    (f3 : ∀ dx : Fin D → ℝ, (List.ofFn fun k => (∑ j, q.A k j * dx j) + q.b k) = stackedModel x dx p.eqs)
    (f4 : List.ofFn q.b = stackedValues x p.eqs) :
    (List.ofFn fun k => (q.b k, fun e : Fin D → ℝ => ∑ j, q.A k j * e j)) = eqRows x p.eqs := by
  have hv : (List.ofFn fun k => (q.b k, fun e : Fin D → ℝ => ∑ j, q.A k j * e j)).map Prod.fst
      = (eqRows (D := D) x p.eqs).map Prod.fst := by
    rw [rows_values, ← f4, List.map_ofFn]
    rfl
  refine rows_ext hv fun e => map_add_cancel hv ?_
  rw [rows_model, ← f3, List.map_ofFn]
  refine congrArg List.ofFn (funext fun k => ?_)
  exact add_comm _ _

/-- Lists that are rearrangements of each other, as functions on positions. -/
theorem ofFn_perm_equiv {X : Type} {a b : Nat} {f : Fin a → X} {g : Fin b → X} (h : (List.ofFn f).Perm (List.ofFn g)) :
    ∃ τ : Fin b ≃ Fin a, ∀ k, g k = f (τ k) := by
  obtain ⟨e, he⟩ := perm_equiv h
  have h1 : (List.ofFn f).length = a := by simp
  have h2 : (List.ofFn g).length = b := by simp
  refine ⟨(finCongr h2.symm).trans (e.trans (finCongr h1)), fun k => ?_⟩
  have := he (Fin.cast h2.symm k)
  rw [List.get_ofFn, List.get_ofFn] at this
  exact this

theorem twin_of_linearize {env : Env n D ℝ} {env' : Env m D ℝ} (h : SameProblem env env' T A)
    (hp : WellPosed env.p n) (hp' : WellPosed env'.p m) (y : Fin m → ℝ) (lam : ℝ)
    {q0 q : QPData D env.p.M env.p.K ℝ} {q0' q' : QPData D env'.p.M env'.p.K ℝ} {pre pre' : Errors ℝ}
    (hl : linearize env.p (T y) lam q0 = .ok (q, pre)) (hl' : linearize env'.p y lam q0' = .ok (q', pre')) :
    pre' = pre ∧ ((lam ≤ 0 ∨ Isometric A) → Twin (A y) q q') ∧
      SameRows (A y) q q' ∧
      (∀ e : Fin D → ℝ, 0 < (∑ i, ∑ j, e i * q'.G (max i j) (min i j) * e j)
        ↔ 0 < ∑ i, ∑ j, A y e i * q.G (max i j) (min i j) * A y e j) := by
  obtain ⟨f1, f2, f3, f4, -, f6⟩ := linearize_facts hp hl
  obtain ⟨g1, g2, g3, g4, -, g6⟩ := linearize_facts hp' hl'
  have hrows : SameRows (A y) q q' := by
    obtain ⟨l1, h1, h2⟩ := h.eqs
    have e1 := rows_of_linearize f3 f4
    have e2 := rows_of_linearize g3 g4
    have e3 := rows_same h1 y
    have hp : (eqRows (D := D) y l1).Perm (eqRows y env'.p.eqs) := h2.flatMap_right _
    rw [e3, ← e1, ← e2, List.map_ofFn] at hp
    obtain ⟨τ, ht⟩ := ofFn_perm_equiv hp
    exact ⟨τ, fun k => congrArg Prod.fst (ht k), fun k e => congrFun (congrArg Prod.snd (ht k)) e⟩
  have hsq : ∀ e : Fin D → ℝ, (env'.p.costs.map fun r => ∑ k, slopeAt r y e k ^ 2).sum
      = (env.p.costs.map fun r => ∑ k, slopeAt r (T y) (A y e) k ^ 2).sum := fun e =>
    (same_sum h.costs _ _ fun r r' hr => (ofFn_sum _ _ (hr.slope y e) fun u => u ^ 2).symm).symm
  have hsq0 : ∀ e : Fin D → ℝ, 0 ≤ (env.p.costs.map fun r => ∑ k, slopeAt r (T y) (A y e) k ^ 2).sum := by
    intro e
    refine List.sum_nonneg fun v hv => ?_
    obtain ⟨r, _, rfl⟩ := List.mem_map.mp hv
    exact Finset.sum_nonneg fun k _ => sq_nonneg _
  refine ⟨by rw [g1, f1, same_errors h], fun hlam => ⟨fun e => ?_, fun e => ?_, hrows⟩, hrows, fun e => ?_⟩
  · rw [g2, f2]
    exact (same_sum h.costs _ _ fun r r' hr =>
      (ofFn_sums _ _ _ _ (hr.value y) (hr.slope y e) fun u v => u * v).symm).symm
  · rw [g6, f6, hsq]
    rcases hlam with hl | hi
    · rw [max_eq_right hl]; ring
    · rw [hi y e]
  · rw [g6, f6, hsq]
    rcases le_or_gt lam 0 with hl | hl
    · rw [max_eq_right hl]; simp
    · rw [max_eq_left hl.le]
      have key : ∀ d : Fin D → ℝ, 0 < ∑ i, d i ^ 2 ↔ d ≠ 0 := by
        intro d
        constructor
        · rintro h0 rfl
          simp at h0
        · intro hd
          obtain ⟨i, hi⟩ := Function.ne_iff.mp hd
          exact Finset.sum_pos' (fun _ _ => sq_nonneg _) ⟨i, Finset.mem_univ _, by
            have : d i ≠ 0 := hi
            positivity⟩
      by_cases he : e = 0
      · subst he
        simp
      · have h1 := (key e).mpr he
        have h2 := (key (A y e)).mpr (fun h0 => he ((A y).map_eq_zero_iff.mp h0))
        have := hsq0 e
        constructor
        · intro _; have := mul_pos hl h2; linarith
        · intro _; have := mul_pos hl h1; linarith

section twin

variable {M K M' K' : Nat} {B : (Fin D → ℝ) ≃ₗ[ℝ] (Fin D → ℝ)} {q : QPData D M K ℝ} {q' : QPData D M' K' ℝ}

theorem twin_derivative (h : Twin B q q') (e : Fin D → ℝ) : costDerivative q' e = costDerivative q (B e) := by
  obtain ⟨h1, h2⟩ := costDerivative_real q' e
  obtain ⟨g1, g2⟩ := costDerivative_real q (B e)
  have e1 : (costDerivative q' e).dF = (costDerivative q (B e)).dF := by rw [h1, g1, h.c]
  have e2 : (costDerivative q' e).dEquality = (costDerivative q (B e)).dEquality := by
    rw [h2, g2]
    obtain ⟨τ, t1, t2⟩ := h.rows
    rw [← Equiv.sum_comp τ]
    exact Finset.sum_congr rfl fun k _ => by rw [t1, t2]
  generalize costDerivative q' e = u at e1 e2
  generalize costDerivative q (B e) = v at e1 e2
  obtain ⟨u1, u2⟩ := u
  obtain ⟨v1, v2⟩ := v
  dsimp only at e1 e2
  rw [e1, e2]

theorem real_penalty (q : QPData D M K ℝ) (dx : Fin D → ℝ) (rho : ℝ) :
    selectPenalty q dx none rho = ((∑ i, q.c i * dx i) + 1 / 2 * max 0 (∑ i, ∑ j, dx i * q.G (max i j) (min i j) * dx j))
      / ((1 - rho) * max (∑ k, |q.b k|) (1 / 2 ^ 52)) := by
  simp only [selectPenalty, real_cmax, real_lpNorm1, epsilon, real_lit, Residual.half]
  congr 1
  · congr 1
    · exact real_dot _ _
    · rw [show ((1 / 2 : ℚ) : ℝ) = 1 / 2 by norm_num, real_dot]
      refine congrArg (fun v => 1 / 2 * max 0 v) (Finset.sum_congr rfl fun i _ => ?_)
      have : matVec (symLower q.G) dx i = ∑ j, q.G (max i j) (min i j) * dx j := by
        show dot (symLower q.G i) dx = _
        rw [real_dot]
        refine Finset.sum_congr rfl fun j _ => ?_
        unfold symLower
        split_ifs with hij
        · rw [max_eq_left hij, min_eq_right hij]
        · rw [max_eq_right (le_of_not_ge hij), min_eq_left (le_of_not_ge hij)]
      rw [this, Finset.mul_sum]
      exact Finset.sum_congr rfl fun j _ => by ring
  · norm_num

theorem twin_penalty (h : Twin B q q') (e : Fin D → ℝ) (rho : ℝ) :
    selectPenalty q' e none rho = selectPenalty q (B e) none rho := by
  obtain ⟨τ, t1, t2⟩ := h.rows
  rw [real_penalty, real_penalty, h.c, h.quad, ← Equiv.sum_comp τ fun k => |q.b k|]
  simp only [t1]

theorem twin_feasible (h : Twin B q q') (e : Fin D → ℝ) : (∀ k, (∑ j, q'.A k j * e j) + q'.b k = 0) ↔
    ∀ k, (∑ j, q.A k j * B e j) + q.b k = 0 := by
  obtain ⟨τ, t1, t2⟩ := h.rows
  rw [← τ.forall_congr_right]
  simp only [t1, t2]

/-- The value `½ dᵀ G d + cᵀ d`. -/
noncomputable def qval {M K : Nat} (q : QPData D M K ℝ) (d : Fin D → ℝ) : ℝ :=
  1 / 2 * (∑ i, ∑ j, d i * q.G (max i j) (min i j) * d j) + ∑ i, q.c i * d i

/-- `d` is the only minimiser under the equality constraints. -/
def OnlyMin {M K : Nat} (q : QPData D M K ℝ) (d : Fin D → ℝ) : Prop :=
  (∀ k, (∑ j, q.A k j * d j) + q.b k = 0) ∧
  ∀ d' : Fin D → ℝ, (∀ k, (∑ j, q.A k j * d' j) + q.b k = 0) → d' ≠ d → qval q d < qval q d'

theorem twin_min (h : Twin B q q') {d e : Fin D → ℝ} (hd : OnlyMin q d) (he : OnlyMin q' e) : d = B e := by
  by_contra hne
  have hval : ∀ u, qval q' u = qval q (B u) := fun u => by unfold qval; rw [h.c, h.quad]
  have h1 := hd.2 (B e) ((twin_feasible h e).mp he.1) (fun e => hne e.symm)
  have h2 := he.2 (B.symm d) ((twin_feasible h _).mpr (by rw [LinearEquiv.apply_symm_apply]; exact hd.1)) (by
    rintro rfl
    rw [LinearEquiv.apply_symm_apply] at hne
    exact hne rfl)
  rw [hval, hval, LinearEquiv.apply_symm_apply] at h2
  exact absurd h1 (not_lt.mpr h2.le)

end twin

/-! ## The direction -/

theorem form_pos {p : Problem D ℝ} (hp : WellPosed p n) {x : Fin n → ℝ} {lam : ℝ} {q0 q : QPData D p.M p.K ℝ} {pre : Errors ℝ}
    (hl : linearize p x lam q0 = .ok (q, pre)) (hr : 0 < lam ∨ RegularAt p x) (d : Fin D → ℝ) (hd : d ≠ 0) :
    0 < ∑ i, ∑ j, d i * q.G (max i j) (min i j) * d j := by
  obtain ⟨-, -, -, -, -, f6⟩ := linearize_facts hp hl
  rw [f6]
  have h0 : ∀ v ∈ p.costs.map fun r => ∑ k, slopeAt r x d k ^ 2, 0 ≤ v := by
    intro v hv
    obtain ⟨r, _, rfl⟩ := List.mem_map.mp hv
    exact Finset.sum_nonneg fun k _ => sq_nonneg _
  have hn : 0 < ∑ i, d i ^ 2 := by
    obtain ⟨i, hi⟩ := Function.ne_iff.mp hd
    exact Finset.sum_pos' (fun _ _ => sq_nonneg _) ⟨i, Finset.mem_univ _, by
      have : d i ≠ 0 := hi
      positivity⟩
  rcases hr with hr | hr
  · rw [max_eq_left hr.le]
    have := List.sum_nonneg h0
    have := mul_pos hr hn
    linarith
  · have h2 : 0 ≤ max lam 0 * ∑ i, d i ^ 2 := mul_nonneg (le_max_right _ _) hn.le
    by_contra hc
    have hz : (p.costs.map fun r => ∑ k, slopeAt r x d k ^ 2).sum = 0 :=
      le_antisymm (by linarith) (List.sum_nonneg h0)
    refine hd (hr d fun r hrm k => ?_)
    have h3 := List.single_le_sum h0 _ (List.mem_map.mpr ⟨r, hrm, rfl⟩)
    rw [hz] at h3
    have h4 := Finset.single_le_sum (f := fun k => slopeAt r x d k ^ 2) (fun i _ => sq_nonneg _) (Finset.mem_univ k)
    have : slopeAt r x d k ^ 2 = 0 := le_antisymm (le_trans h4 h3) (sq_nonneg _)
    exact pow_eq_zero_iff (two_ne_zero) |>.mp this

/-- Without inequality constraints the direction of a pass is the only minimiser of the linearised problem. -/
theorem direction_min {env : Env n D ℝ} (hE : LDLTContract env.E) (hN : NSContract env.NE) (hp : WellPosed env.p n)
    (hi : env.p.ineq = []) {prm : NLSParams ℝ} {ob o1 : env.Obj} {res : QPResult ℝ} {x : Fin n → ℝ} {lam : ℝ}
    {q0 : QPData D env.p.M env.p.K ℝ} {pre : Errors ℝ} (hl : linearize env.p x lam q0 = .ok (ob.qp, pre))
    (hd : stepDirection env prm ob = .ok (o1, res)) (hw : wasIndefinite res = false)
    (hr : env.p.eqs = [] → 0 < lam ∨ RegularAt env.p x)
    (hk : (∃ s, ob.solver = .ns s) ↔ env.p.ineq = [] ∧ env.p.eqs ≠ []) :
    OnlyMin ob.qp o1.dx := by
  rcases stepDirection_cases hd with ⟨hcon, s, s', q, h1, -, hs, -, hdx⟩ | ⟨s, s', t, h1, -, hs, ht, hdx⟩
  · have he : env.p.eqs = [] := by
      by_contra hne
      obtain ⟨s2, hs2⟩ := hk.mpr ⟨hi, hne⟩
      rw [h1] at hs2; cases hs2
    have hM : env.p.M = 0 := by simp [Problem.M, hi]
    have hK : env.p.K = 0 := by simp [Problem.K, he]
    have noK : ∀ {P : Prop}, Fin env.p.K → P := fun k => absurd (lt_of_lt_of_eq k.isLt hK) (Nat.not_lt_zero _)
    have noM : ∀ {P : Prop}, Fin env.p.M → P := fun m => absurd (lt_of_lt_of_eq m.isLt hM) (Nat.not_lt_zero _)
    have hpd : PosDefG (ob.qp.typed hcon) := fun x hx => form_pos hp hl (hr he) x hx
    have hind : IndependentRows (ob.qp.typed hcon) := by
      intro y _
      funext k
      exact noK k
    obtain ⟨-, -, hmin⟩ := one_iteration_of_zero hM env.E hE _ hpd hind (qpParams env.p prm)
      (by simp only [qpParams, QPParams.default, real_lit]; norm_num) _ (setupState_WF s) _ hs
    refine ⟨fun k => noK k, fun d' _ hne => ?_⟩
    have := hmin d' ⟨fun m => noM m, fun k => noK k⟩ (by rw [← hdx]; exact hne)
    rw [hdx]
    exact this
  · have hts : t = .success := by
      rw [ht] at hw
      cases t with
      | success => rfl
      | notPositiveDefinite => cases hw
    subst hts
    obtain ⟨h2, h3⟩ := C26_null_space_minimiser env.NE hN _ s _ hs rfl
    have hdx' := hdx rfl
    refine ⟨fun k => ?_, fun d' hf hne => ?_⟩
    · rw [hdx']; exact h2 k
    · have := h3 d' hf (by rw [← hdx']; exact hne)
      rw [hdx']; exact this


theorem same_nil {env : Env n D ℝ} {env' : Env m D ℝ} (h : SameProblem env env' T A) :
    env'.p.eqs = [] ↔ env.p.eqs = [] := by
  obtain ⟨l1, h1, h2⟩ := h.eqs
  have : env.p.eqs.length = env'.p.eqs.length := h1.length_eq.trans h2.length_eq
  rw [← List.length_eq_zero_iff, ← List.length_eq_zero_iff, this]

/-- The direction's QP is reported indefinite in both coordinates or in none. -/
theorem same_indefinite {env : Env n D ℝ} {env' : Env m D ℝ} (h : SameProblem env env' T A)
    (hN : NSContract env.NE) (hN' : NSContract env'.NE) (hp : WellPosed env.p n) (hp' : WellPosed env'.p m)
    {prm : NLSParams ℝ} {ob o1 : env.Obj} {ob' o1' : env'.Obj} {res res' : QPResult ℝ} {y : Fin m → ℝ} {lam : ℝ}
    {q0 : QPData D env.p.M env.p.K ℝ} {q0' : QPData D env'.p.M env'.p.K ℝ} {pre pre' : Errors ℝ}
    (hl : linearize env.p (T y) lam q0 = .ok (ob.qp, pre)) (hl' : linearize env'.p y lam q0' = .ok (ob'.qp, pre'))
    (hd : stepDirection env prm ob = .ok (o1, res)) (hd' : stepDirection env' prm ob' = .ok (o1', res'))
    (hk : (∃ s, ob.solver = .ns s) ↔ (∃ s, ob'.solver = .ns s)) :
    wasIndefinite res = wasIndefinite res' := by
  obtain ⟨-, -, ⟨τ, -, hrows⟩, hpos⟩ := twin_of_linearize h hp hp' y lam hl hl'
  rcases stepDirection_cases hd with ⟨_, s, _, q, h1, -, -, h2, -⟩ | ⟨s, s1, t, h1, -, hs, h2, -⟩ <;>
    rcases stepDirection_cases hd' with ⟨_, s', _, q', h1', -, -, h2', -⟩ | ⟨s', s1', t', h1', -, hs', h2', -⟩
  · rw [h2, h2']; rfl
  · obtain ⟨s2, h3⟩ := hk.mpr ⟨s', h1'⟩
    rw [h1] at h3; cases h3
  · obtain ⟨s2, h3⟩ := hk.mp ⟨s, h1⟩
    rw [h1'] at h3; cases h3
  · have i1 := (C28_not_posdef_truthful env.NE hN _ s _ hs).1
    have i2 := (C28_not_posdef_truthful env'.NE hN' _ s' _ hs').1
    have hiff : PosDefOnNull (⟨ob'.qp.G, ob'.qp.c, ob'.qp.A, ob'.qp.b, Fin.elim0⟩ : QP D 0 env'.p.K ℝ) ↔
        PosDefOnNull (⟨ob.qp.G, ob.qp.c, ob.qp.A, ob.qp.b, Fin.elim0⟩ : QP D 0 env.p.K ℝ) := by
      have hnull : ∀ e : Fin D → ℝ, (∀ k, ∑ j, ob'.qp.A k j * e j = 0) ↔ ∀ k, ∑ j, ob.qp.A k j * A y e j = 0 := by
        intro e
        rw [← τ.forall_congr_right (q := fun k => ∑ j, ob.qp.A k j * A y e j = 0)]
        simp only [hrows]
      constructor
      · intro hq d hd0 hnd
        have e1 := hpos ((A y).symm d)
        have e2 := hnull ((A y).symm d)
        rw [LinearEquiv.apply_symm_apply] at e1 e2
        exact e1.mp (hq ((A y).symm d) (fun h0 => hd0 ((A y).symm.map_eq_zero_iff.mp h0)) (e2.mpr hnd))
      · intro hq e he0 hne
        exact (hpos e).mpr (hq (A y e) (fun h0 => he0 ((A y).map_eq_zero_iff.mp h0)) ((hnull e).mp hne))
    have : t = .notPositiveDefinite ↔ t' = .notPositiveDefinite := by
      dsimp only at i1 i2
      rw [i1, i2, hiff]
    rw [h2, h2']
    cases t <;> cases t' <;> simp_all [wasIndefinite]

/-! ## The line search -/

theorem same_search {env : Env n D ℝ} {env' : Env m D ℝ} (h : SameProblem env env' T A) (prm : NLSParams ℝ) (y : Fin m → ℝ)
    (e : Fin D → ℝ) (pre : Errors ℝ) (d : DirectionalDerivatives ℝ) (pen : ℝ) : ∀ (fuel iter : Nat) (a : ℝ)
    (steps : List (LineSearchStep ℝ)) (c : Fin n → ℝ) (c' : Fin m → ℝ) (r r'),
    lsLoop env prm (T y) (A y e) pre d pen fuel iter a steps c = .ok r →
    lsLoop env' prm y e pre d pen fuel iter a steps c' = .ok r' →
    r'.1 = r.1 ∧ r'.2.1 = r.2.1 ∧ (r.1 = .success → r.2.2 = T r'.2.2) := by
  intro fuel
  induction fuel with
  | zero =>
    intro iter a steps c c' r r' hr hr'
    simp only [lsLoop, Except.ok.injEq] at hr hr'
    subst hr hr'
    exact ⟨rfl, rfl, by simp⟩
  | succ fuel ih =>
    intro iter a steps c c' r r' hr hr'
    simp only [lsLoop] at hr hr'
    cases hn : nextAlpha prm.lineSearchStrategy prm.armijoSearchTau iter pre d pen a steps with
    | error e => rw [hn] at hr; cases hr
    | ok q =>
      rw [hn] at hr hr'
      cases q with
      | none =>
        simp only [Except.ok.injEq] at hr hr'
        subst hr hr'
        exact ⟨rfl, rfl, by simp⟩
      | some a1 =>
        simp only at hr hr'
        cases hm : retract env (T y) (A y e) a1 with
        | error _ => rw [hm] at hr; cases hr
        | ok x1 =>
          cases hm' : retract env' y e a1 with
          | error _ => rw [hm'] at hr'; cases hr'
          | ok y1 =>
            have hx := h.moves y e a1 x1 y1 hm hm'
            rw [hm] at hr
            rw [hm'] at hr'
            simp only at hr hr'
            cases he : evalErrors env.p x1 with
            | error _ => rw [he] at hr; cases hr
            | ok es =>
              cases he' : evalErrors env'.p y1 with
              | error _ => rw [he'] at hr'; cases hr'
              | ok es' =>
                have e1 := ((evalErrors_ok_iff env.p x1 es).mp he).2
                have e2 := ((evalErrors_ok_iff env'.p y1 es').mp he').2
                have : es' = es := by rw [e1, e2, same_errors h, hx]
                subst this
                rw [he] at hr
                rw [he'] at hr'
                simp only at hr hr'
                split_ifs at hr hr'
                · cases hr; cases hr'; exact ⟨rfl, rfl, fun _ => hx⟩
                · cases hr; cases hr'; exact ⟨rfl, rfl, fun _ => hx⟩
                · cases hr; cases hr'; exact ⟨rfl, rfl, fun _ => hx⟩
                · cases hr; cases hr'; exact ⟨rfl, rfl, fun _ => hx⟩
                · exact ih _ _ _ _ _ _ _ hr hr'

/-! ## The whole solve -/

/-- Loop states that describe the same point of the same solve. -/
structure Linked (T : (Fin m → ℝ) → Fin n → ℝ) {env : Env n D ℝ} {env' : Env m D ℝ} (s : Loop env) (s' : Loop env') : Prop where
  vars : s.obj.vars = T s'.obj.vars
  lambda : s'.lambda = s.lambda
  penalty : s'.penalty = s.penalty
  state : s'.obj.state = s.obj.state
  log : s'.log.map withoutQP = s.log.map withoutQP
  calls : s'.calls.map withoutQP = s.calls.map withoutQP

theorem same_finish {f f' : Option (List (NLSIteration ℝ) → Bool)} (h : SameCallback f f') {i i' : NLSIteration ℝ}
    (hi : withoutQP i' = withoutQP i) (ex : Option NLSTermination) {c c' : List (NLSIteration ℝ)}
    (hc : c'.map withoutQP = c.map withoutQP) :
    (finish f' i' ex c').1.map withoutQP = (finish f i ex c).1.map withoutQP ∧
    (finish f' i' ex c').2 = (finish f i ex c).2 := by
  have happ : (c' ++ [i']).map withoutQP = (c ++ [i]).map withoutQP := by simp [hi, hc]
  cases f with
  | none =>
    cases f' with
    | none => exact ⟨hc, rfl⟩
    | some g => exact absurd h (by simp [SameCallback])
  | some f =>
    cases f' with
    | none => exact absurd h (by simp [SameCallback])
    | some g =>
      cases ex with
      | some t => exact ⟨happ, rfl⟩
      | none =>
        refine ⟨happ, ?_⟩
        show (if g (c' ++ [i']) then none else some NLSTermination.userCallback)
          = if f (c ++ [i]) then none else some NLSTermination.userCallback
        rw [h (c ++ [i]) (c' ++ [i']) happ.symm]

theorem same_pass {env : Env n D ℝ} {env' : Env m D ℝ} (h : SameProblem env env' T A)
    (hE : LDLTContract env.E) (hE' : LDLTContract env'.E) (hN : NSContract env.NE) (hN' : NSContract env'.NE)
    (hp : WellPosed env.p n) (hp' : WellPosed env'.p m) (hi : env.p.ineq = []) (hi' : env'.p.ineq = [])
    {prm : NLSParams ℝ} {k : Nat} {s s1 : Loop env} {s' s1' : Loop env'} {t t' : Option NLSTermination}
    {w : PassData env} {w' : PassData env'} (hs : Linked T s s') (P : Pass env prm k s s1 t w) (P' : Pass env' prm k s' s1' t' w')
    (hr : env.p.eqs = [] → 0 < s.lambda ∨ RegularAt env.p s.obj.vars) (hiso : s.lambda ≤ 0 ∨ Isometric A)
    (hk : (∃ q, s.obj.solver = .ns q) ↔ env.p.ineq = [] ∧ env.p.eqs ≠ [])
    (hk' : (∃ q, s'.obj.solver = .ns q) ↔ env'.p.ineq = [] ∧ env'.p.eqs ≠ []) :
    Linked T s1 s1' ∧ t' = t ∧ withoutQP w'.info = withoutQP w.info := by
  obtain ⟨sol, hd, -⟩ := P.dir
  obtain ⟨sol', hd', -⟩ := P'.dir
  have hl := P.lin
  have hl' := P'.lin
  rw [hs.vars] at hl
  rw [hs.lambda] at hl'
  obtain ⟨hpre, htw, -⟩ := twin_of_linearize h hp hp' s'.obj.vars s.lambda hl hl'
  have htw := htw hiso
  have hr' : env'.p.eqs = [] → 0 < s.lambda ∨ RegularAt env'.p s'.obj.vars := by
    intro he
    rcases hr ((same_nil h).mp he) with h1 | h1
    · exact .inl h1
    · rw [hs.vars] at h1
      exact .inr (same_regular h _ h1)
  have m1 := direction_min hE hN hp hi (ob := { s.obj with qp := w.qp }) (o1 := { s.obj with qp := w.qp, dx := w.dx, solver := sol }) P.lin hd P.notIndef hr hk
  have m2 := direction_min hE' hN' hp' hi' (ob := { s'.obj with qp := w'.qp }) (o1 := { s'.obj with qp := w'.qp, dx := w'.dx, solver := sol' }) hl' hd' P'.notIndef hr' hk'
  have hdx : w.dx = A s'.obj.vars w'.dx := twin_min htw m1 m2
  have hder : costDerivative w'.qp w'.dx = costDerivative w.qp w.dx := by rw [twin_derivative htw, hdx]
  have hmult : env.p.eqs ≠ [] → multipliers w.out = none := by
    intro hne
    obtain ⟨q, hq⟩ := hk.mpr ⟨hi, hne⟩
    rcases stepDirection_cases hd with ⟨_, _, _, _, h1, _⟩ | ⟨_, _, _, _, _, _, h2, _⟩
    · have h1' : s.obj.solver = .ip _ := h1
      rw [hq] at h1'; cases h1'
    · rw [h2]; rfl
  have hmult' : env'.p.eqs ≠ [] → multipliers w'.out = none := by
    intro hne
    obtain ⟨q, hq⟩ := hk'.mpr ⟨hi', hne⟩
    rcases stepDirection_cases hd' with ⟨_, _, _, _, h1, _⟩ | ⟨_, _, _, _, _, _, h2, _⟩
    · have h1' : s'.obj.solver = .ip _ := h1
      rw [hq] at h1'; cases h1'
    · rw [h2]; rfl
  have hpen : s1'.penalty = s1.penalty := by
    rw [P.penalty, P'.penalty, hs.penalty]
    unfold raisePenalty
    by_cases hne : env.p.eqs = []
    · rw [if_neg (by simpa using (same_nil h).mpr hne), if_neg (by simpa using hne)]
    · have hne' : env'.p.eqs ≠ [] := fun e => hne ((same_nil h).mp e)
      rw [if_pos hne, if_pos hne', hmult hne, hmult' hne', twin_penalty htw, hdx]
  have hls := P.ls
  have hls' := P'.ls
  rw [hs.vars, hdx] at hls
  rw [hpre, hder, hdx, hpen] at hls'
  obtain ⟨r1, r2, r3⟩ := same_search h prm s'.obj.vars w'.dx w.pre _ s1.penalty _ _ _ _ _ _ _ _ hls hls'
  dsimp only at r1 r2 r3
  have hst : s1'.obj.state = s1.obj.state := by rw [P.state, P'.state, hs.state, r1]
  have hlam : s1'.lambda = s1.lambda := by rw [P.lambda, P'.lambda, hs.state, hs.lambda, r1]
  have hex : w'.exit = w.exit := by rw [P.exit, P'.exit, r1, r2, hpre, hpen, hlam]
  have hinfo : withoutQP w'.info = withoutQP w.info := by
    have a1 := P.iiter; have b1 := P'.iiter
    have a2 := P.istate; have b2 := P'.istate
    have a3 := P.ilambda; have b3 := P'.ilambda
    have a4 := P.ipre; have b4 := P'.ipre
    have a5 := P.ideriv; have b5 := P'.ideriv
    have a6 := P.ipenalty; have b6 := P'.ipenalty
    have a7 := P.ires; have b7 := P'.ires
    have a8 := P.isteps; have b8 := P'.isteps
    rw [hst] at b2; rw [hs.lambda] at b3; rw [hpre] at b4; rw [hder] at b5; rw [hpen] at b6; rw [r1] at b7; rw [r2] at b8
    generalize w.info = u at *
    generalize w'.info = v at *
    obtain ⟨u1, u2, u3, u4, u5, u6, u7, u8, u9, u10⟩ := u
    obtain ⟨v1, v2, v3, v4, v5, v6, v7, v8, v9, v10⟩ := v
    dsimp only at *
    unfold withoutQP
    dsimp only
    rw [a1, b1, a2, b2, a3, b3, a4, b4, a5, b5, a6, b6, a7, b7, a8, b8]
  obtain ⟨c1, c2⟩ := same_finish h.callback hinfo w.exit hs.calls
  refine ⟨⟨?_, hlam, hpen, hst, ?_, ?_⟩, ?_, hinfo⟩
  · rw [P.vars, P'.vars, r1]
    split_ifs with hres
    · exact r3 hres
    · exact hs.vars
  · rw [P.log, P'.log, List.map_append, List.map_append, hs.log, List.map_cons, List.map_cons, hinfo]
  · rw [P.calls, P'.calls, hex]; exact c1
  · rw [P.term, P'.term, hex]; exact c2

/-- **C101**. Solving a problem without inequality constraints and solving the same problem written in other coordinates
(any change of variables `x = T y`, with a retraction that commutes with it) is the same, if every step length is measured
alike or no iteration is damped: the same log, the same termination, and the final point is the image of the other final point. -/
theorem C101_coordinates (env : Env n D ℝ) (env' : Env m D ℝ) (T : (Fin m → ℝ) → Fin n → ℝ)
    (A : (Fin m → ℝ) → (Fin D → ℝ) ≃ₗ[ℝ] (Fin D → ℝ)) (hsame : SameProblem env env' T A)
    (hE : LDLTContract env.E) (hE' : LDLTContract env'.E) (hN : NSContract env.NE) (hN' : NSContract env'.NE)
    (hp : WellPosed env.p n) (hp' : WellPosed env'.p m) (hi : env.p.ineq = []) (hi' : env'.p.ineq = [])
    (prm : NLSParams ℝ) (y0 : Fin m → ℝ) (o o1 : env.Obj) (o' o1' : env'.Obj) (out out' : NLSOutputs ℝ)
    (calls calls' : List (NLSIteration ℝ)) (h : solve env prm (T y0) o = .ok (o1, out, calls))
    (h' : solve env' prm y0 o' = .ok (o1', out', calls'))
    (hreg : env.p.eqs = [] → ∀ k it a, out.iterations[k]? = some it → After env prm (T y0) o k a →
      0 < it.lambda ∨ RegularAt env.p a.vars)
    (hlam : Isometric A ∨ ∀ it ∈ out.iterations, it.lambda ≤ 0) :
    o1.vars = T o1'.vars ∧ out'.termination = out.termination ∧
    out'.iterations.map withoutQP = out.iterations.map withoutQP ∧ calls'.map withoutQP = calls.map withoutQP := by
  obtain ⟨S, U, W, hv⟩ := solve_view h
  obtain ⟨S', U', W', hv'⟩ := solve_view h'
  have key : ∀ k, k ≤ out.iterations.length → k ≤ out'.iterations.length →
      Linked T (S k) (S' k) ∧ ∀ j, j < k → U' j = U j := by
    intro k
    induction k with
    | zero =>
      intro _ _
      rw [hv.start, hv'.start]
      exact ⟨⟨rfl, rfl, rfl, rfl, rfl, rfl⟩, fun j hj => by omega⟩
    | succ k ih =>
      intro hk hk'
      obtain ⟨hlk, hU⟩ := ih (by omega) (by omega)
      have P := hv.pass k (by omega)
      have P' := hv'.pass k (by omega)
      have hlog := hv.log k (by omega)
      obtain ⟨q1, q2, -⟩ := same_pass hsame hE hE' hN hN' hp hp' hi hi' hlk P P'
        (fun he => by
          have := hreg he k _ _ hlog ((hv.after k (by omega) _).mpr rfl)
          rwa [P.ilambda] at this)
        (by
          rcases hlam with h1 | h1
          · exact .inr h1
          · have := h1 _ (List.mem_of_getElem? hlog)
            rw [P.ilambda] at this
            exact .inl this)
        (view_solver hv k (by omega)) (view_solver hv' k (by omega))
      refine ⟨q1, fun j hj => ?_⟩
      rcases Nat.lt_succ_iff_lt_or_eq.mp hj with h1 | rfl
      · exact hU j h1
      · exact q2
  have hkinds : ∀ k, k ≤ out.iterations.length → k ≤ out'.iterations.length →
      ((∃ s, (S k).obj.solver = .ns s) ↔ ∃ s, (S' k).obj.solver = .ns s) := by
    intro k hk hk'
    rw [view_solver hv k hk, view_solver hv' k hk', hi, hi', Ne, Ne, same_nil hsame]
  have hlen : out'.iterations.length = out.iterations.length := by
    rcases Nat.lt_trichotomy out.iterations.length out'.iterations.length with hlt | he | hgt
    · exfalso
      obtain ⟨hlk, hU⟩ := key out.iterations.length le_rfl hlt.le
      rcases hv.stop with ⟨_, e1, _⟩ | ⟨_, hpos, e1, _⟩ | ⟨_, _, _, qp, pre, ob1, res, hl, hd, hw, _⟩
      · have := hv'.le; omega
      · have e2 := hU (out.iterations.length - 1) (by omega)
        rw [e1, hv'.cont (out.iterations.length - 1) (by omega)] at e2
        cases e2
      · have P' := hv'.pass _ hlt
        obtain ⟨sol', hd', -⟩ := P'.dir
        have hl' := P'.lin
        rw [hlk.vars] at hl
        rw [hlk.lambda] at hl'
        have := same_indefinite hsame hN hN' hp hp' hl hl' hd hd' (hkinds _ le_rfl hlt.le)
        rw [hw, P'.notIndef] at this
        cases this
    · exact he.symm
    · exfalso
      obtain ⟨hlk, hU⟩ := key out'.iterations.length hgt.le le_rfl
      rcases hv'.stop with ⟨_, e1, _⟩ | ⟨_, hpos, e1, _⟩ | ⟨_, _, _, qp, pre, ob1, res, hl, hd, hw, _⟩
      · have := hv.le; omega
      · have e2 := hU (out'.iterations.length - 1) (by omega)
        rw [e1, hv.cont (out'.iterations.length - 1) (by omega)] at e2
        cases e2
      · have P := hv.pass _ hgt
        obtain ⟨sol', hd', -⟩ := P.dir
        have hl' := P.lin
        rw [hlk.vars] at hl'
        rw [hlk.lambda] at hl
        have := same_indefinite hsame hN hN' hp hp' hl' hl hd' hd (hkinds _ hgt.le le_rfl)
        rw [hw, P.notIndef] at this
        cases this
  obtain ⟨hlk, hU⟩ := key out.iterations.length le_rfl hlen.ge
  refine ⟨?_, ?_, ?_, ?_⟩
  · rw [hv.vars, hv'.vars, hlen]; exact hlk.vars
  · have hs' := hv'.stop
    rw [hlen] at hs'
    rcases hv.stop with ⟨t1, e1, n1, _⟩ | ⟨_, hpos, e1, _⟩ | ⟨t1, lt1, n1, _⟩ <;>
      rcases hs' with ⟨t2, e2, n2, _⟩ | ⟨_, hpos2, e2, _⟩ | ⟨t2, lt2, n2, _⟩
    · rw [t1, t2]
    · have := hU (out.iterations.length - 1) (by omega)
      rw [e2, n1 _ (by omega)] at this; cases this
    · omega
    · have := hU (out.iterations.length - 1) (by omega)
      rw [e1, n2 _ (by omega)] at this; cases this
    · have := hU (out.iterations.length - 1) (by omega)
      rw [e1, e2] at this
      exact Option.some.inj this
    · have := hU (out.iterations.length - 1) (by omega)
      rw [e1, n2 _ (by omega)] at this; cases this
    · omega
    · have := hU (out.iterations.length - 1) (by omega)
      rw [e2, n1 _ (by omega)] at this; cases this
    · rw [t1, t2]
  · have := hlk.log
    rw [hv.slog _ le_rfl, hv'.slog _ hlen.ge, List.take_length, ← hlen, List.take_length] at this
    exact this
  · rw [hv.calls, hv'.calls, hlen]; exact hlk.calls

/-! ## Linear changes of variables, renaming -/

theorem rewritten_params (B : (Fin D → ℝ) ≃ₗ[ℝ] (Fin D → ℝ)) (t : Fin D → ℝ) (r : Residual ℝ) (y : Fin D → ℝ) :
    params (rewrittenResidual B t r) y = y := by
  funext l
  have h : 0 ≤ ((l.val : Nat) : Int) ∧ ((l.val : Nat) : Int) < (D : Int) := by have : l.val < D := l.isLt; omega
  have : params (rewrittenResidual B t r) y l = if h : 0 ≤ ((l.val : Nat) : Int) ∧ ((l.val : Nat) : Int) < (D : Int) then
    y ⟨((l.val : Nat) : Int).toNat, by omega⟩ else 0 := rfl
  rw [this, dif_pos h]
  congr 1

theorem linear_sum (B : (Fin D → ℝ) ≃ₗ[ℝ] (Fin D → ℝ)) (e : Fin D → ℝ) (j : Fin D) :
    ∑ l, B (Pi.single l 1) j * e l = B e j := by
  conv_rhs => rw [← Finset.univ_sum_single e, map_sum]
  rw [Finset.sum_apply]
  refine Finset.sum_congr rfl fun l _ => ?_
  have : (Pi.single l (e l) : Fin D → ℝ) = e l • Pi.single l 1 := by
    rw [← Pi.single_smul, smul_eq_mul, mul_one]
  rw [this, map_smul, Pi.smul_apply, smul_eq_mul, mul_comm]

theorem rewritten_same (B : (Fin D → ℝ) ≃ₗ[ℝ] (Fin D → ℝ)) (t : Fin D → ℝ) (r : Residual ℝ) :
    SameResidual D (affineMap B t) (fun _ => B) r (rewrittenResidual B t r) := by
  refine ⟨fun y => congrArg List.ofFn ?_, fun y e => congrArg List.ofFn ?_⟩
  · show r.value (params r (affineMap B t (params (rewrittenResidual B t r) y))) = _
    rw [rewritten_params]; rfl
  · funext k
    have hj : ∀ l : Fin D, jacAt (rewrittenResidual B t r) y D k l
        = ∑ j, jacAt r (affineMap B t y) D k j * B (Pi.single l 1) j := by
      intro l
      have : jacAt (rewrittenResidual B t r) y D k l = ∑ l' : Fin D, if ((l'.val : Nat) : Int) = ((l.val : Nat) : Int) then
          ∑ j, jacAt r (affineMap B t (params (rewrittenResidual B t r) y)) D k j * B (Pi.single l' 1) j else 0 := rfl
      rw [this, rewritten_params, Finset.sum_eq_single l]
      · rw [if_pos rfl]
      · intro l' _ hne
        rw [if_neg]
        intro h
        exact hne (Fin.ext (by exact_mod_cast h))
      · intro h; exact absurd (Finset.mem_univ _) h
    have e1 : slopeAt (rewrittenResidual B t r) y e k = ∑ l, jacAt (rewrittenResidual B t r) y D k l * e l := rfl
    have e2 : slopeAt r (affineMap B t y) (B e) k = ∑ j, jacAt r (affineMap B t y) D k j * B e j := rfl
    rw [e1, e2]
    simp only [hj, Finset.sum_mul]
    rw [Finset.sum_comm]
    refine Finset.sum_congr rfl fun j _ => ?_
    rw [← linear_sum B e j, Finset.mul_sum]
    exact Finset.sum_congr rfl fun l _ => by ring

theorem forall2_map {β : Type} {R : β → β → Prop} {l : List β} {f : β → β} (h : ∀ r ∈ l, R r (f r)) :
    List.Forall₂ R l (l.map f) := by
  induction l with
  | nil => exact .nil
  | cons a l ih => exact .cons (h a (by simp)) (ih fun r hr => h r (by simp [hr]))

theorem rewritten_wellPosed {p : Problem D ℝ} (hp : WellPosed p D) (B : (Fin D → ℝ) ≃ₗ[ℝ] (Fin D → ℝ)) (t : Fin D → ℝ) :
    WellPosed (⟨p.costs.map (rewrittenResidual B t), [], p.eqs.map (rewrittenResidual B t)⟩ : Problem D ℝ) D := by
  have hmem : ∀ r ∈ p.costs.map (rewrittenResidual B t) ++ p.eqs.map (rewrittenResidual B t),
      ∃ r0 ∈ p.costs ++ p.eqs, r = rewrittenResidual B t r0 := by
    intro r hr
    rw [← List.map_append] at hr
    obtain ⟨r0, h0, rfl⟩ := List.mem_map.mp hr
    exact ⟨r0, h0, rfl⟩
  have hidx : ∀ r0 : Residual ℝ, IdxIn (rewrittenResidual B t r0) D := by
    intro r0 l
    have := l.isLt
    show 0 ≤ ((l.val : Nat) : Int) ∧ ((l.val : Nat) : Int) < (D : Int)
    have h2 : l.val < D := l.isLt
    omega
  refine ⟨fun r hr => ?_, fun r hr => ?_, fun r hr => ?_, fun r hr => ?_, fun c hc => by cases hc⟩
  · obtain ⟨r0, -, rfl⟩ := hmem r hr; exact hidx r0
  · obtain ⟨r0, -, rfl⟩ := hmem r hr; exact hidx r0
  · obtain ⟨r0, -, rfl⟩ := hmem r hr
    intro a b h
    have h' : ((a.val : Nat) : Int) = ((b.val : Nat) : Int) := h
    exact Fin.ext (by omega)
  · obtain ⟨r0, h0, rfl⟩ := hmem r hr
    intro q
    exact hp.consistent r0 h0 _

/-- **C101** (a linear change of variables). Any problem without inequality constraints, written in variables `y` with
`x = B y + t` - other units, a rotated frame, another origin, a preconditioner - and solved with the default retraction: when no
iteration is damped (or `B` preserves lengths) the two solves go through corresponding points with the same log. -/
theorem C101_affine (env env' : Env D D ℝ) (B : (Fin D → ℝ) ≃ₗ[ℝ] (Fin D → ℝ)) (t : Fin D → ℝ)
    (hpr : env'.p = ⟨env.p.costs.map (rewrittenResidual B t), [], env.p.eqs.map (rewrittenResidual B t)⟩)
    (hR : env.retraction = none) (hR' : env'.retraction = none) (hcb : SameCallback env.callback env'.callback)
    (hE : LDLTContract env.E) (hE' : LDLTContract env'.E) (hN : NSContract env.NE) (hN' : NSContract env'.NE)
    (hp : WellPosed env.p D) (hi : env.p.ineq = [])
    (prm : NLSParams ℝ) (y0 : Fin D → ℝ) (o o1 : env.Obj) (o' o1' : env'.Obj) (out out' : NLSOutputs ℝ)
    (calls calls' : List (NLSIteration ℝ)) (h : solve env prm (affineMap B t y0) o = .ok (o1, out, calls))
    (h' : solve env' prm y0 o' = .ok (o1', out', calls'))
    (hreg : env.p.eqs = [] → ∀ k it a, out.iterations[k]? = some it → After env prm (affineMap B t y0) o k a →
      0 < it.lambda ∨ RegularAt env.p a.vars)
    (hlam : (∀ e, ∑ i, B e i ^ 2 = ∑ i, e i ^ 2) ∨ ∀ it ∈ out.iterations, it.lambda ≤ 0) :
    o1.vars = affineMap B t o1'.vars ∧ out'.termination = out.termination ∧
    out'.iterations.map withoutQP = out.iterations.map withoutQP ∧ calls'.map withoutQP = calls.map withoutQP := by
  have hc : env'.p.costs = env.p.costs.map (rewrittenResidual B t) := by rw [hpr]
  have he : env'.p.eqs = env.p.eqs.map (rewrittenResidual B t) := by rw [hpr]
  refine C101_coordinates env env' (affineMap B t) (fun _ => B) ⟨?_, ?_, ?_, hcb⟩ hE hE' hN hN' hp ?_ hi ?_ prm y0 o o1 o' o1' out
    out' calls calls' h h' hreg (hlam.imp (fun h _ => h) id)
  · rw [hc]; exact ⟨_, forall2_map fun r _ => rewritten_same B t r, .refl _⟩
  · rw [he]; exact ⟨_, forall2_map fun r _ => rewritten_same B t r, .refl _⟩
  · intro y e a x z hx hz
    unfold retract at hx hz
    rw [hR] at hx
    rw [hR'] at hz
    simp only [dite_true, Fin.cast_eq_self, Except.ok.injEq] at hx hz
    subst hx hz
    funext i
    have : (fun i => y i + e i * a) = y + a • e := by funext i; simp [mul_comm]
    show B y i + t i + B e i * a = B (fun i => y i + e i * a) i + t i
    rw [this, map_add, map_smul, Pi.add_apply, Pi.smul_apply, smul_eq_mul]
    ring
  · rw [hpr]; exact rewritten_wellPosed hp B t
  · rw [hpr]

theorem renamed_index (σ : Fin D ≃ Fin D) {r : Residual ℝ} (hr : IdxIn r D) (l : Fin r.P) :
    (renamedResidual σ r).index l = ((σ ⟨(r.index l).toNat, by have := hr l; omega⟩).val : Int) := by
  show (if h : 0 ≤ r.index l ∧ r.index l < (D : Int) then _ else _) = _
  rw [dif_pos (hr l)]

theorem renamed_params (σ : Fin D ≃ Fin D) {r : Residual ℝ} (hr : IdxIn r D) (y : Fin D → ℝ) :
    params (renamedResidual σ r) y = params r (fun i => y (σ i)) := by
  funext l
  have h2 := renamed_index σ hr l
  have hlt := (σ ⟨(r.index l).toNat, by have := hr l; omega⟩).isLt
  have e1 : params (renamedResidual σ r) y l = if h : 0 ≤ (renamedResidual σ r).index l ∧
      (renamedResidual σ r).index l < (D : Int) then y ⟨((renamedResidual σ r).index l).toNat, by omega⟩ else 0 := rfl
  have e2 : params r (fun i => y (σ i)) l = if h : 0 ≤ r.index l ∧ r.index l < (D : Int) then
    y (σ ⟨(r.index l).toNat, by omega⟩) else 0 := rfl
  rw [e1, e2, dif_pos (hr l), dif_pos (by rw [h2]; omega)]
  congr 1
  apply Fin.ext
  show ((renamedResidual σ r).index l).toNat = _
  rw [h2, Int.toNat_natCast]

theorem renamed_same (σ : Fin D ≃ Fin D) {r : Residual ℝ} (hr : IdxIn r D) :
    SameResidual D (fun y i => y (σ i)) (fun _ => LinearEquiv.funCongrLeft ℝ ℝ σ) r (renamedResidual σ r) := by
  refine ⟨fun y => congrArg List.ofFn ?_, fun y e => congrArg List.ofFn ?_⟩
  · show r.value (params (renamedResidual σ r) y) = r.value (params r fun i => y (σ i))
    rw [renamed_params σ hr]
  · funext k
    have e1 : slopeAt (renamedResidual σ r) y e k = ∑ j, jacAt (renamedResidual σ r) y D k j * e j := rfl
    have e2 : slopeAt r (fun i => y (σ i)) (LinearEquiv.funCongrLeft ℝ ℝ σ e) k
        = ∑ j, jacAt r (fun i => y (σ i)) D k j * e (σ j) := rfl
    rw [e1, e2, ← Equiv.sum_comp σ]
    refine Finset.sum_congr rfl fun j _ => ?_
    have hj : jacAt (renamedResidual σ r) y D k (σ j) = jacAt r (fun i => y (σ i)) D k j := by
      have f1 : jacAt (renamedResidual σ r) y D k (σ j) = ∑ l : Fin r.P,
        if (renamedResidual σ r).index l = ((σ j).val : Int) then r.jac (params (renamedResidual σ r) y) k l else 0 := rfl
      have f2 : jacAt r (fun i => y (σ i)) D k j = ∑ l : Fin r.P,
        if r.index l = (j.val : Int) then r.jac (params r fun i => y (σ i)) k l else 0 := rfl
      rw [f1, f2, renamed_params σ hr]
      refine Finset.sum_congr rfl fun l _ => ?_
      have hiff : (renamedResidual σ r).index l = ((σ j).val : Int) ↔ r.index l = (j.val : Int) := by
        rw [renamed_index σ hr l]
        have := hr l
        constructor
        · intro h
          have h3 := σ.injective (Fin.ext (by exact_mod_cast h) :
            σ ⟨(r.index l).toNat, by omega⟩ = σ j)
          have h4 := congrArg Fin.val h3
          dsimp only at h4
          omega
        · intro h
          have : (⟨(r.index l).toNat, by omega⟩ : Fin D) = j := Fin.ext (by dsimp only; omega)
          rw [this]
      simp only [hiff]
    rw [hj]

theorem renamed_wellPosed {p : Problem D ℝ} (hp : WellPosed p D) (σ : Fin D ≃ Fin D) :
    WellPosed (⟨p.costs.map (renamedResidual σ), [], p.eqs.map (renamedResidual σ)⟩ : Problem D ℝ) D := by
  have hmem : ∀ r ∈ p.costs.map (renamedResidual σ) ++ p.eqs.map (renamedResidual σ),
      ∃ r0 ∈ p.costs ++ p.eqs, r = renamedResidual σ r0 := by
    intro r hr
    rw [← List.map_append] at hr
    obtain ⟨r0, h0, rfl⟩ := List.mem_map.mp hr
    exact ⟨r0, h0, rfl⟩
  have hidx : ∀ r0 ∈ p.costs ++ p.eqs, IdxIn (renamedResidual σ r0) D := by
    intro r0 h0 l
    rw [renamed_index σ (hp.idxD r0 h0) l]
    have := (σ ⟨(r0.index l).toNat, by have := hp.idxD r0 h0 l; omega⟩).isLt
    omega
  refine ⟨fun r hr => ?_, fun r hr => ?_, fun r hr => ?_, fun r hr => ?_, fun c hc => by cases hc⟩
  · obtain ⟨r0, h0, rfl⟩ := hmem r hr; exact hidx r0 h0
  · obtain ⟨r0, h0, rfl⟩ := hmem r hr; exact hidx r0 h0
  · obtain ⟨r0, h0, rfl⟩ := hmem r hr
    intro a b h
    have hi := hp.idxD r0 h0
    rw [renamed_index σ hi a, renamed_index σ hi b] at h
    have h3 := σ.injective (Fin.ext (by exact_mod_cast h) :
      σ ⟨(r0.index a).toNat, by have := hi a; omega⟩ = σ ⟨(r0.index b).toNat, by have := hi b; omega⟩)
    have h4 := congrArg Fin.val h3
    dsimp only at h4
    have := hi a
    have := hi b
    exact hp.distinct r0 h0 (by omega)
  · obtain ⟨r0, h0, rfl⟩ := hmem r hr
    exact hp.consistent r0 h0

/-- **C101** (the numbering of the variables). For a problem without inequality constraints, renumbering the variables
consistently renumbers the result and changes nothing else, damped or not. -/
theorem C101_renaming (env env' : Env D D ℝ) (σ : Fin D ≃ Fin D)
    (hpr : env'.p = ⟨env.p.costs.map (renamedResidual σ), [], env.p.eqs.map (renamedResidual σ)⟩)
    (hR : env.retraction = none) (hR' : env'.retraction = none) (hcb : SameCallback env.callback env'.callback)
    (hE : LDLTContract env.E) (hE' : LDLTContract env'.E) (hN : NSContract env.NE) (hN' : NSContract env'.NE)
    (hp : WellPosed env.p D) (hi : env.p.ineq = [])
    (prm : NLSParams ℝ) (y0 : Fin D → ℝ) (o o1 : env.Obj) (o' o1' : env'.Obj) (out out' : NLSOutputs ℝ)
    (calls calls' : List (NLSIteration ℝ)) (h : solve env prm (fun i => y0 (σ i)) o = .ok (o1, out, calls))
    (h' : solve env' prm y0 o' = .ok (o1', out', calls'))
    (hreg : env.p.eqs = [] → ∀ k it a, out.iterations[k]? = some it → After env prm (fun i => y0 (σ i)) o k a →
      0 < it.lambda ∨ RegularAt env.p a.vars) :
    (∀ i, o1.vars i = o1'.vars (σ i)) ∧ out'.termination = out.termination ∧
    out'.iterations.map withoutQP = out.iterations.map withoutQP ∧ calls'.map withoutQP = calls.map withoutQP := by
  have hc : env'.p.costs = env.p.costs.map (renamedResidual σ) := by rw [hpr]
  have he : env'.p.eqs = env.p.eqs.map (renamedResidual σ) := by rw [hpr]
  have hsame : SameProblem env env' (fun y i => y (σ i)) (fun _ => LinearEquiv.funCongrLeft ℝ ℝ σ) := by
    refine ⟨?_, ?_, ?_, hcb⟩
    · rw [hc]; exact ⟨_, forall2_map fun r hr => renamed_same σ (hp.idxD r (by simp [hr])), .refl _⟩
    · rw [he]; exact ⟨_, forall2_map fun r hr => renamed_same σ (hp.idxD r (by simp [hr])), .refl _⟩
    · intro y e a x z hx hz
      unfold retract at hx hz
      rw [hR] at hx
      rw [hR'] at hz
      simp only [dite_true, Fin.cast_eq_self, Except.ok.injEq] at hx hz
      subst hx hz
      rfl
  have hp' : WellPosed env'.p D := by rw [hpr]; exact renamed_wellPosed hp σ
  have hi' : env'.p.ineq = [] := by rw [hpr]
  obtain ⟨r1, r2⟩ := C101_coordinates env env' _ _ hsame hE hE' hN hN' hp hp' hi hi' prm y0 o o1 o' o1' out out' calls calls'
    h h' hreg (.inl fun _ e => Equiv.sum_comp σ fun i => e i ^ 2)
  exact ⟨fun i => congrFun r1 i, r2⟩

end MiniOpt.Props
