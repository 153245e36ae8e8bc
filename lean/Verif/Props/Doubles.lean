import Verif.Props.DoubleConstraints
import Verif.Props.NLSDescent
import Verif.Props.NLSState
import Verif.Props.NLSReuse
import Verif.Props.QPResult
import Verif.Lemmas.DemoF64

/-!
# C36, C37, C40, C43, C48, C63 in binary64

Whole-run guarantees with rounding, overflow, underflow, infinities and NaN taken into account, for every order of
summation and every `std::pow` (`L`).
-/

set_option autoImplicit false

namespace MiniOpt.Props

open MiniOpt.Spec MiniOpt.NLS MiniOpt.F64

variable {L : Libm} {n D : Nat}

theorem dbl_le_trans {x y z : Dbl L} (h1 : x ≤ y) (h2 : y ≤ z) : x ≤ z := F64.le_trans h1 h2
theorem dbl_le_of_lt {x y : Dbl L} (h : x < y) : x ≤ y := F64.le_of_lt h
theorem dbl_le_ne_nan {x y : Dbl L} (h : x ≤ y) : x ≠ F64.nan ∧ y ≠ F64.nan := F64.le_ne_nan h
theorem dbl_le_refl {x : Dbl L} (h : x ≠ F64.nan) : x ≤ x := F64.le_refl h
theorem dbl_one : (1 : Dbl L) = F64.fin false oneMag := F64.round_one
theorem dbl_zero : (0 : Dbl L) = F64.zero false := rfl
theorem dbl_zero_ne_nan : (0 : Dbl L) ≠ F64.nan := by rw [dbl_zero]; exact F64.noConfusion

theorem dbl_lt_irrefl (x : Dbl L) : ¬ x < x := by
  intro h
  have h' : F64.lt x x = true := h
  exact absurd h' (by rw [show F64.lt x x = false from F64.lt_irrefl x]; decide)

/-- Adding a penalised violation of zero does not matter, unless it makes the sum NaN. -/
theorem dbl_add_pen_zero {x y pen : Dbl L} (hx : x ≠ F64.nan) (hy : y ≠ F64.nan)
    (h : x + pen * 0 ≤ y + pen * 0) : x ≤ y := by
  have hle' : F64.le (F64.add x (F64.mul pen (F64.zero false))) (F64.add y (F64.mul pen (F64.zero false))) = true := h
  revert hle'
  generalize hx' : (x : F64) = x' at *
  generalize hy' : (y : F64) = y' at *
  intro hle'
  rcases F64.mul_zero_cases pen with hn | ⟨s, hn⟩
  · rw [hn] at hle'
    have : F64.add x' .nan = .nan := by cases x' <;> rfl
    rw [this, F64.le_nan_left] at hle'
    cases hle'
  · rw [hn] at hle'
    subst hx' hy'
    exact F64.le_trans (F64.add_zero_le s hx).2 (F64.le_trans hle' (F64.add_zero_le s hy).1)

theorem dbl_zero_le_one : (0 : Dbl L) ≤ 1 := by
  show F64.le (F64.zero false) (F64.round false 1) = true; decide +kernel

/-- **C40** in binary64. Every step size tried by a line search is a number in `[0, 1]`, and the sequence does not
increase. (It can become exactly 0 by underflow if more than a thousand backtracking steps are allowed.) -/
theorem C40_double (env : Env n D (Dbl L)) (prm : NLSParams (Dbl L)) (x0 : Fin n → Dbl L) (o o' : env.Obj)
    (out : NLSOutputs (Dbl L)) (calls : List (NLSIteration (Dbl L))) (h : solve env prm x0 o = .ok (o', out, calls))
    (it : NLSIteration (Dbl L)) (hit : it ∈ out.iterations) :
    (∀ st ∈ it.lineSearchSteps, Dbl.Finite st.alpha ∧ 0 ≤ st.alpha ∧ st.alpha ≤ 1) ∧
    (∀ (j : Nat) st st', it.lineSearchSteps[j]? = some st → it.lineSearchSteps[j + 1]? = some st' →
      st'.alpha ≤ st.alpha) := by
  obtain ⟨h1, h2, h3, h4⟩ := C40_alphas_any env prm x0 o o' out calls h it hit
  obtain ⟨S, T, W, hv⟩ := solve_view h
  have htau := hv.prmOk.armijoSearchTau
  have hstep : ∀ (j : Nat) st st', it.lineSearchSteps[j]? = some st → it.lineSearchSteps[j + 1]? = some st' →
      Dbl.Finite st.alpha → 0 ≤ st.alpha → st.alpha ≤ 1 →
      Dbl.Finite st'.alpha ∧ 0 ≤ st'.alpha ∧ st'.alpha ≤ st.alpha := by
    intro j st st' hst hst' hf h0 hone
    have h' := h4 j st st' hst hst'
    obtain ⟨s, m, hm⟩ := F64.isFinite_iff.mp hf
    cases hs : prm.lineSearchStrategy with
    | armijoBacktrack =>
      rw [hs] at h'
      simp only at h'
      have h01 : F64.le (F64.zero false) (F64.fin s m) = true := by rw [← hm]; exact h0
      have hle : F64.le (F64.mul (F64.fin s m) prm.armijoSearchTau) (F64.fin s m) = true :=
        F64.mul_le_self (F64.zero_le_fin.mp h01) (F64.le_of_lt htau.1) (dbl_one (L := L) ▸ F64.le_of_lt htau.2)
      have hge : F64.le (F64.zero false) (F64.mul (F64.fin s m) prm.armijoSearchTau) = true :=
        F64.mul_nonneg' h01 (F64.le_of_lt htau.1) (F64.le_ne_nan hle).1
      have he : st'.alpha = F64.mul (F64.fin s m) prm.armijoSearchTau := by rw [h', hm]; rfl
      rw [he, hm]
      exact ⟨F64.isFinite_iff.mpr (F64.finite_between hge hle), hge, hle⟩
    | polynomialApproximation =>
      rw [hs] at h'
      have hn' := finite_ne_nan h'.1
      exact ⟨h'.1, dbl_le_of_lt (dbl_not_le hn' dbl_zero_ne_nan h'.2.1),
        dbl_le_of_lt (dbl_not_le (finite_ne_nan hf) hn' h'.2.2)⟩
  have hall : ∀ (j : Nat) st, it.lineSearchSteps[j]? = some st → Dbl.Finite st.alpha ∧ 0 ≤ st.alpha ∧ st.alpha ≤ 1 := by
    intro j
    induction j with
    | zero =>
      intro st hst
      rw [h3 st hst]
      exact ⟨by rw [dbl_one]; rfl, dbl_zero_le_one, by rw [dbl_one]; exact F64.le_refl (by simp)⟩
    | succ j ih =>
      intro st' hst'
      have hj := lt_of_getElem? hst'
      obtain ⟨st, hst⟩ : ∃ st, it.lineSearchSteps[j]? = some st := ⟨_, List.getElem?_eq_getElem (by omega)⟩
      obtain ⟨a, b, c⟩ := ih st hst
      obtain ⟨a', b', c'⟩ := hstep j st st' hst hst' a b c
      exact ⟨a', b', dbl_le_trans c' c⟩
  refine ⟨?_, ?_⟩
  · intro st hst
    obtain ⟨j, hj⟩ := List.mem_iff_getElem?.mp hst
    exact hall j st hj
  · intro j st st' hst hst'
    obtain ⟨a, b, c⟩ := hall j st hst
    exact (hstep j st st' hst hst' a b c).2.2

/-- **C36** in binary64. Whenever an iteration reports `SUCCESS`, the merit computed at the new variables is `≤` the
merit computed at the old ones as doubles - so neither is NaN - although the right-hand side of the acceptance test is
itself computed with rounding. The errors at the new variables are finite and the directional derivative is `≤ 0`. -/
theorem C36_double (env : Env n D (Dbl L)) (hc : ConsistentP env.p) (prm : NLSParams (Dbl L)) (x0 : Fin n → Dbl L)
    (o o' : env.Obj) (out : NLSOutputs (Dbl L)) (calls : List (NLSIteration (Dbl L)))
    (h : solve env prm x0 o = .ok (o', out, calls))
    (k : Nat) (it : NLSIteration (Dbl L)) (hit : out.iterations[k]? = some it) (hs : it.stepResult = .success)
    (a b : env.Obj) (ha : After env prm x0 o k a) (hb : After env prm x0 o (k + 1) b) :
    (costAt env.p b.vars + it.penalty * violationAt env.p b.vars : Dbl L)
      ≤ costAt env.p a.vars + it.penalty * violationAt env.p a.vars ∧
    Dbl.Finite (costAt env.p b.vars) ∧ Dbl.Finite (violationAt env.p b.vars) ∧
    it.directionalDerivatives.dF + it.penalty * it.directionalDerivatives.dEquality ≤ (0 : Dbl L) := by
  have hmem : it ∈ out.iterations := List.mem_of_getElem? hit
  obtain ⟨_, hiff⟩ := C40_only_last_accepted env prm x0 o o' out calls h it hmem
  obtain ⟨st, hst, hval, _, hpos, harm⟩ := hiff.mp hs
  obtain ⟨h1, _, h3⟩ := C39_logged_errors env hc prm x0 o o' out calls h k it hit a b ha hb
  obtain ⟨st', hst', he⟩ := h3 hs
  rw [hst] at hst'; cases hst'
  obtain ⟨hal, _⟩ := C40_double env prm x0 o o' out calls h it hmem
  obtain ⟨-, ha0, -⟩ := hal st (List.mem_of_getLast? hst)
  have hrhs := (dbl_le_ne_nan harm).2
  set pre := it.errorsInitial.total it.penalty with hpre
  set d := it.directionalDerivatives.total it.penalty with hd
  have hX : F64.add pre (F64.mul (F64.mul d st.alpha) (armijoC1 : Dbl L)) ≠ .nan := hrhs
  have addnan : ∀ u v : F64, F64.add u v ≠ .nan → v ≠ .nan := by
    intro u v hu hv; subst hv; exact hu (by cases u <;> rfl)
  have mulnan : ∀ u v : F64, F64.mul u v ≠ .nan → u ≠ .nan := by
    intro u v hu hv; subst hv; exact hu rfl
  have hX2 := addnan _ _ hX
  have hdn : d ≠ F64.nan := mulnan _ _ (mulnan _ _ hX2)
  have hd0 : d ≤ 0 := dbl_not_lt dbl_zero_ne_nan hdn hpos
  have hda := F64.mul_nonpos_nonneg hd0 ha0 (mulnan _ _ hX2)
  have hc1 : F64.le (F64.zero false) (armijoC1 : Dbl L) = true := by
    show F64.le (F64.zero false) (F64.round false _) = true
    exact F64.round_nonneg _ (by norm_num)
  have hx0 := F64.mul_nonpos_nonneg hda hc1 hX2
  have hfin := dbl_le_trans harm (F64.add_nonpos_le hx0 hX)
  rw [he] at hfin hval
  have h1' : it.errorsInitial = errorsAt env.p a.vars := h1
  rw [hpre, h1'] at hfin
  refine ⟨hfin, ?_, ?_, hd0⟩
  · by_contra hc; exact hval (Or.inl hc)
  · by_contra hc; exact hval (Or.inr hc)

/-- **C37** in binary64. Without equality constraints the logged initial costs never increase, and if the cost at the
start is finite then so is the cost at every later iterate and at the returned variables, and none exceeds an earlier
one - compared as doubles. -/
theorem C37_double (env : Env n D (Dbl L)) (hc : ConsistentP env.p) (he : env.p.eqs = []) (prm : NLSParams (Dbl L))
    (x0 : Fin n → Dbl L) (o o' : env.Obj) (out : NLSOutputs (Dbl L)) (calls : List (NLSIteration (Dbl L)))
    (h : solve env prm x0 o = .ok (o', out, calls)) (hx : Dbl.Finite (costAt env.p x0)) :
    costAt env.p o'.vars ≤ costAt env.p x0 ∧ Dbl.Finite (costAt env.p o'.vars) ∧
    (∀ (i j : Nat) (a b : env.Obj), i ≤ j → j ≤ out.iterations.length → After env prm x0 o i a →
      After env prm x0 o j b → costAt env.p b.vars ≤ costAt env.p a.vars) ∧
    (∀ (i j : Nat) it it', i ≤ j → out.iterations[i]? = some it → out.iterations[j]? = some it' →
      it'.errorsInitial.f ≤ it.errorsInitial.f) := by
  obtain ⟨hex, hfirst, hlast⟩ := C38_after env prm x0 o o' out calls h
  have hz : ∀ x : Fin n → Dbl L, violationAt env.p x = 0 := by
    intro x; unfold violationAt; rw [he]; rfl
  have hfin : ∀ (j : Nat) (b : env.Obj), j ≤ out.iterations.length → After env prm x0 o j b →
      Dbl.Finite (costAt env.p b.vars) ∧
      ∀ i a, i + 1 = j → After env prm x0 o i a → costAt env.p b.vars ≤ costAt env.p a.vars := by
    intro j
    induction j with
    | zero =>
      intro b _ hb
      rw [hfirst b hb]
      exact ⟨hx, fun i a hi => by omega⟩
    | succ j ih =>
      intro b hj hb
      obtain ⟨m, hm, _⟩ := hex j (by omega)
      obtain ⟨it, hit⟩ : ∃ it, out.iterations[j]? = some it := ⟨_, List.getElem?_eq_getElem (by omega)⟩
      have hmf := (ih m (by omega) hm).1
      have hboth : Dbl.Finite (costAt env.p b.vars) ∧ costAt env.p b.vars ≤ costAt env.p m.vars := by
        by_cases hs : it.stepResult = .success
        · obtain ⟨hle, hf, -, -⟩ := C36_double env hc prm x0 o o' out calls h j it hit hs m b hm hb
          rw [hz, hz] at hle
          refine ⟨hf, ?_⟩
          exact dbl_add_pen_zero (finite_ne_nan hf) (finite_ne_nan hmf) hle
        · obtain ⟨_, hmv⟩ := C38_variables_move env prm x0 o o' out calls h j it hit m b hm hb
          rw [hmv hs]
          exact ⟨hmf, dbl_le_refl (finite_ne_nan hmf)⟩
      refine ⟨hboth.1, fun i a hi ha => ?_⟩
      have : i = j := by omega
      subst this
      rw [(hex i (by omega)).unique ha hm]
      exact hboth.2
  have hmono : ∀ (i j : Nat) (a b : env.Obj), i ≤ j → j ≤ out.iterations.length → After env prm x0 o i a →
      After env prm x0 o j b → costAt env.p b.vars ≤ costAt env.p a.vars := by
    intro i j
    induction j with
    | zero =>
      intro a b hij hj ha hb
      have : i = 0 := by omega
      subst this
      rw [(hex 0 (by omega)).unique ha hb]
      exact dbl_le_refl (finite_ne_nan (hfin 0 b hj hb).1)
    | succ j ih =>
      intro a b hij hj ha hb
      rcases Nat.lt_or_ge i (j + 1) with hlt | hge
      · obtain ⟨m, hm, _⟩ := hex j (by omega)
        exact dbl_le_trans ((hfin (j + 1) b hj hb).2 j m rfl hm) (ih a m (by omega) (by omega) ha hm)
      · have : i = j + 1 := by omega
        subst this
        rw [(hex (j + 1) hj).unique ha hb]
        exact dbl_le_refl (finite_ne_nan (hfin (j + 1) b hj hb).1)
  obtain ⟨a0, ha0, _⟩ := hex 0 (by omega)
  obtain ⟨bl, hbl, _⟩ := hex _ le_rfl
  refine ⟨?_, ?_, hmono, ?_⟩
  · have := hmono 0 _ a0 bl (by omega) le_rfl ha0 hbl
    rwa [hfirst a0 ha0, hlast bl hbl] at this
  · have := (hfin _ bl le_rfl hbl).1
    rwa [hlast bl hbl] at this
  · intro i j it it' hij hit hit'
    have hj := lt_of_getElem? hit'
    obtain ⟨a, ha, _⟩ := hex i (by omega)
    obtain ⟨a', ha', _⟩ := hex (i + 1) (by omega)
    obtain ⟨b, hb, _⟩ := hex j (by omega)
    obtain ⟨b', hb', _⟩ := hex (j + 1) (by omega)
    rw [(C39_logged_errors env hc prm x0 o o' out calls h i it hit a a' ha ha').1,
      (C39_logged_errors env hc prm x0 o o' out calls h j it' hit' b b' hb hb').1]
    exact hmono i j a b hij (by omega) ha hb

/-- Non-vacuity of the three theorems above: solving `x² = 2` from `x = 5` in binary64 makes four accepted steps; the
start is finite, the residual consistent, and there are no equality constraints. -/
example : ∃ o' out calls, solve (DemoF64.env1 DemoF64.sqrt2) (DemoF64.prm 20) (fun _ => DemoF64.d 5)
      (DemoF64.obj1 DemoF64.sqrt2) = .ok (o', out, calls) ∧
    out.iterations.map (·.stepResult) = [.success, .success, .success, .success, .firstOrderSatisfied] ∧
    ConsistentP (DemoF64.env1 DemoF64.sqrt2).p ∧ (DemoF64.env1 DemoF64.sqrt2).p.eqs = [] ∧
    Dbl.Finite (costAt (DemoF64.env1 DemoF64.sqrt2).p fun _ : Fin 1 => DemoF64.d 5) := by
  obtain ⟨o', out, calls, h, _, hr⟩ := DemoF64.summary_run DemoF64.run_sqrt2
  refine ⟨o', out, calls, h, hr, ?_, rfl, by decide +kernel⟩
  intro r hr p
  simp only [DemoF64.env1, List.append_nil, List.mem_singleton] at hr
  subst hr; rfl

/-- **C48** in binary64: accepted parameters meet the condition `C48_stall` and `C48_stall_forever` need. -/
theorem C48_double (p : Problem D (Dbl L)) (prm : NLSParams (Dbl L)) (h : NLSParamsValid prm) : ScaleOk p prm := by
  right
  intro a h0 hlt
  have hs := h.equalityPenaltyScaleFactor
  rw [dbl_one] at hs
  have hn : F64.mul a prm.equalityPenaltyScaleFactor ≠ .nan := (F64.lt_ne_nan hlt).1
  have ha : F64.le (F64.zero false) a = true := F64.le_of_lt (F64.lt_of_lt_of_le h0 (F64.le_of_lt hlt))
  have h1 : F64.le a (F64.mul a prm.equalityPenaltyScaleFactor) = true := F64.le_mul_self ha hs hn
  exact dbl_lt_irrefl a (F64.lt_of_le_of_lt h1 hlt)

end MiniOpt.Props
