import Verif.Props.Serialization
import Verif.Props.NLSLog

/-!
# C58 for the logs the solvers produce, C66: malformed JSON

More concrete cases: `Props/MoreExamples.lean`.
-/

set_option autoImplicit false

namespace MiniOpt.Props

open MiniOpt.NLS MiniOpt.Spec MiniOpt.IP MiniOpt.Ser MiniOpt.Cpp

variable {α : Type} [Scalar α] {n D : Nat}

/-- The QP solver only fills the probe fields when it uses the predictor-corrector strategy and there are inequality
constraints. -/
theorem probes_none {N M K : Nat} {E : Eigen N K α} {p : QP N M K α} {prm : QPParams α} {st : IPState N M K α}
    {r : IPState N M K α × QPOutputs α} (h : IP.solve E p prm st = .ok r)
    (hs : prm.barrierStrategy ≠ .predictorCorrector ∨ M = 0) :
    r.2.iterations ≠ [] ∧ ∀ it ∈ r.2.iterations, it.ip.alphaProbe = none ∧ it.ip.muAffine = none := by
  obtain ⟨st0, sts, mus, -, ht, h1, -⟩ := IP.solve_traj h
  refine ⟨List.ne_nil_of_length_pos h1, fun it hit => ?_⟩
  obtain ⟨k, hk, rfl⟩ := List.mem_iff_getElem.mp hit
  obtain ⟨st1, hi, -⟩ := (ht.body k hk).out
  obtain ⟨st2, -, -, -, -, h5, h6⟩ := iterate_ok hi
  have hd : (direction p (mus k) prm.barrierStrategy st2).2.2 = none := by
    unfold direction
    by_cases hM : 0 < M
    · rw [if_neg (by omega), if_pos (hs.resolve_right (by omega))]
    · rw [if_pos hM]
  rw [h5, h6, hd]
  exact ⟨rfl, rfl⟩

/-- **C58** (nonlinear solver logs). The log of every nonlinear solve that used the interior point method and logged at
least one iteration cannot be read back from JSON text: the probe fields of its QP iterations are the NaN they were
initialised with, which is written as `null`, and reading throws. -/
theorem C58_interior_point_logs (env : Env n D α) (prm : NLSParams α) (x0 : Fin n → α) (o o' : env.Obj)
    (out : NLSOutputs α) (calls : List (NLSIteration α)) (h : solve env prm x0 o = .ok (o', out, calls))
    (hip : ¬ (env.p.ineq = [] ∧ env.p.eqs ≠ [])) (hne : out.iterations ≠ [])
    (nan : α) (hnan : ¬ Scalar.isFinite nan) :
    fromJson (throughText (toJson (Outputs.of nan out))) = .error .typeError := by
  apply (C58_text_round_trip _).2
  intro hall
  apply hnan
  apply hall
  obtain ⟨S, T, W, hv⟩ := solve_view h
  have hlen : 0 < out.iterations.length := List.length_pos_of_ne_nil hne
  obtain ⟨sol, hd, -⟩ := (hv.pass 0 hlen).dir
  have hq := (hv.pass 0 hlen).iout
  rcases stepDirection_cases hd with ⟨hcon, s, s', q, h1, h2, h3, h4, -⟩ | ⟨s, s', t, h1, -⟩
  · obtain ⟨hne', hpr⟩ := probes_none h3 (Or.inl (by simp [qpParams, QPParams.default]))
    obtain ⟨qi, hqi⟩ := List.exists_mem_of_ne_nil _ hne'
    have hmem : (W 0).info ∈ out.iterations := List.mem_of_getElem? (hv.log 0 hlen)
    unfold doubles
    rw [List.mem_flatMap]
    refine ⟨Iter.of nan (W 0).info, List.mem_map.mpr ⟨_, hmem, rfl⟩, ?_⟩
    have hin : nan ∈ doublesQPRes (QPRes.of nan (W 0).info.qpOutputs) := by
      rw [hq, h4]
      show nan ∈ List.flatMap doublesQPIter (q.iterations.map (QPIter.of nan)) ++ _
      refine List.mem_append_left _ (List.mem_flatMap.mpr ⟨_, List.mem_map.mpr ⟨qi, hqi, rfl⟩, ?_⟩)
      have := (hpr qi hqi).2
      simp [doublesQPIter, doublesIP, QPIter.of, IPOutputs.of, this]
    unfold doublesIter
    simp only [List.mem_append, List.mem_cons]
    exact Or.inl (Or.inl (Or.inl (Or.inr hin)))
  · exact absurd ((view_solver hv 0 (by omega)).mp ⟨s, h1⟩) hip

/-- **C58** (null-space logs). If the null-space method was used the log reads back whenever its own doubles are
finite; the NaN placeholder never occurs in it. -/
theorem C58_null_space_logs (env : Env n D α) (prm : NLSParams α) (x0 : Fin n → α) (o o' : env.Obj)
    (out : NLSOutputs α) (calls : List (NLSIteration α)) (h : solve env prm x0 o = .ok (o', out, calls))
    (hns : env.p.ineq = [] ∧ env.p.eqs ≠ [])
    (hfin : ∀ it ∈ out.iterations, Scalar.isFinite it.lambda ∧ Scalar.isFinite it.penalty ∧
      Scalar.isFinite it.errorsInitial.f ∧ Scalar.isFinite it.errorsInitial.equality ∧
      Scalar.isFinite it.directionalDerivatives.dF ∧ Scalar.isFinite it.directionalDerivatives.dEquality ∧
      (∀ e ∈ it.qpEigenvalues, Scalar.isFinite e.min ∧ Scalar.isFinite e.max ∧ Scalar.isFinite e.absMin) ∧
      ∀ s ∈ it.lineSearchSteps, Scalar.isFinite s.alpha ∧ Scalar.isFinite s.errors.f ∧ Scalar.isFinite s.errors.equality)
    (nan : α) :
    fromJson (throughText (toJson (Outputs.of nan out))) = .ok (Outputs.of nan out) := by
  apply (C58_text_round_trip _).1
  obtain ⟨S, T, W, hv⟩ := solve_view h
  intro x hx
  unfold doubles at hx
  rw [List.mem_flatMap] at hx
  obtain ⟨i, hi, hx⟩ := hx
  obtain ⟨it, hit, rfl⟩ := List.mem_map.mp hi
  obtain ⟨k, hk, hkit⟩ := List.mem_iff_getElem.mp hit
  have hlog := hv.log k hk
  rw [List.getElem?_eq_getElem hk, hkit] at hlog
  have hlog : it = (W k).info := Option.some.inj hlog
  obtain ⟨f1, f2, f3, f4, f5, f6, f7, f8⟩ := hfin it hit
  obtain ⟨sol, hd, -⟩ := (hv.pass k hk).dir
  have hq := (hv.pass k hk).iout
  have hqn : doublesQPRes (QPRes.of nan it.qpOutputs) = [] := by
    rcases stepDirection_cases hd with ⟨hcon, s, s', q, h1, -⟩ | ⟨s, s', t, h1, h2, h3, h4, -⟩
    · obtain ⟨s2, hs2⟩ := (view_solver hv k (by omega)).mpr hns
      have h1' : (S k).obj.solver = .ip s := h1
      rw [h1'] at hs2; cases hs2
    · rw [hlog, hq, h4]; rfl
  have hx' : x ∈ it.lambda :: doublesErrors it.errorsInitial ++ doublesQPRes (QPRes.of nan it.qpOutputs) ++
    (it.qpEigenvalues.map doublesEigen).getD [] ++ doublesDeriv it.directionalDerivatives ++
    it.penalty :: it.lineSearchSteps.flatMap doublesStep := hx
  rw [hqn] at hx'
  simp only [List.mem_append, List.mem_cons, doublesErrors, doublesDeriv, List.not_mem_nil, or_false,
    List.mem_flatMap, doublesStep] at hx'
  rcases hx' with (((rfl | rfl | rfl) | hx') | rfl | rfl) | rfl | ⟨s, hs, rfl | rfl | rfl⟩
  · exact f1
  · exact f3
  · exact f4
  · cases he : it.qpEigenvalues with
    | none => rw [he] at hx'; simp at hx'
    | some e =>
      rw [he] at hx'
      have := f7 e (by rw [he]; rfl)
      simp only [Option.map_some, Option.getD_some, doublesEigen, List.mem_cons, List.not_mem_nil, or_false] at hx'
      rcases hx' with rfl | rfl | rfl
      · exact this.1
      · exact this.2.1
      · exact this.2.2
  · exact f5
  · exact f6
  · exact f2
  · exact (f8 s hs).1
  · exact (f8 s hs).2.1
  · exact (f8 s hs).2.2

end MiniOpt.Props
