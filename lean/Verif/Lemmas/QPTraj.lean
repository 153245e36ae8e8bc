import Verif.Lemmas.QPLoop

/-! The sequence of loop heads of a finished `Solve` (any arithmetic). -/

set_option autoImplicit false

namespace MiniOpt.IP

open MiniOpt

variable {α : Type} [Scalar α] {N M K : Nat}

/-- `its` are the logged iterations, `sts k`, `mus k` the solver state and barrier parameter after `k`
iterations. -/
structure Traj (E : Eigen N K α) (p : QP N M K α) (prm : QPParams α) (st0 : IPState N M K α) (mu0 : α)
    (its : List (QPIteration α)) (sts : Nat → IPState N M K α) (mus : Nat → α) : Prop where
  s0 : sts 0 = st0
  m0 : mus 0 = mu0
  body : ∀ k (h : k < its.length), BodyStep E p prm (sts k) (mus k) (sts (k + 1)) its[k]
  mu : ∀ k (h : k < its.length), mus (k + 1) = nextMu prm its[k].kktFinal (sts (k + 1)) (mus k)
  noexit : ∀ k (h : k + 1 < its.length), ¬ ExitTest prm (sts (k + 1)) its[k]

theorem BodyStep.unique {E : Eigen N K α} {p : QP N M K α} {prm : QPParams α} {st : IPState N M K α}
    {mu : α} {a b : IPState N M K α} {i j : QPIteration α} (h : BodyStep E p prm st mu a i)
    (h' : BodyStep E p prm st mu b j) : a = b ∧ i = j := by
  obtain ⟨⟨s1, h1, e1⟩, i1, f1⟩ := h
  obtain ⟨⟨s1', h1', e1'⟩, i1', f1'⟩ := h'
  rw [h1] at h1'
  simp only [Except.ok.injEq, Prod.mk.injEq] at h1'
  have hst : a = b := by rw [e1', e1, h1'.1]
  refine ⟨hst, ?_⟩
  cases i; cases j
  simp only at *
  rw [i1, f1, i1', f1', hst, h1'.2]

/-- Every successful loop has a trajectory. -/
theorem solveLoop_traj (E : Eigen N K α) (p : QP N M K α) (prm : QPParams α) :
    ∀ (n : Nat) (st : IPState N M K α) (mu : α) (log : List (QPIteration α))
      (r : IPState N M K α × QPOutputs α), solveLoop E p prm n st mu log = .ok r →
      ∃ its sts mus, Traj E p prm st mu its sts mus ∧ r.2.iterations = log ++ its ∧
        r.1 = sts its.length ∧ its.length ≤ n ∧ r.2.lagrange = lagrangeSummary r.1.v.y ∧
        (r.2.termination = .maxIterations → its.length = n ∧
          ∀ it ∈ its.getLast?, ¬ ExitTest prm r.1 it) ∧
        (r.2.termination = .satisfiedKktTol → ∃ it ∈ its.getLast?, ExitTest prm r.1 it) := by
  intro n
  induction n with
  | zero =>
    intro st mu log r h
    rw [solveLoop_zero] at h; cases h
    exact ⟨[], fun _ => st, fun _ => mu, ⟨rfl, rfl, by simp, by simp, by simp⟩, by simp, rfl, by simp,
      rfl, by simp, by simp⟩
  | succ n ih =>
    intro st mu log r h
    rcases solveLoop_succ E p prm n st mu log with ⟨e, _, hr⟩ | ⟨st2, it, hb, ⟨hx, hr⟩ | ⟨hx, hr⟩⟩
    · rw [hr] at h; cases h
    · rw [hr] at h; cases h
      refine ⟨[it], fun k => if k = 0 then st else st2,
        fun k => if k = 0 then mu else nextMu prm it.kktFinal st2 mu, ⟨by simp, by simp, ?_, ?_, by simp⟩,
        rfl, by simp, by simp, rfl, by simp, fun _ => ⟨it, by simp, hx⟩⟩
      · intro k hk; simp at hk; subst hk; simpa using hb
      · intro k hk; simp at hk; subst hk; simp
    · rw [hr] at h
      obtain ⟨its, sts, mus, ht, h1, h2, h3, h4, h5, h6⟩ := ih _ _ _ r h
      refine ⟨it :: its, fun k => if k = 0 then st else sts (k - 1),
        fun k => if k = 0 then mu else mus (k - 1), ⟨by simp, by simp, ?_, ?_, ?_⟩, by simp [h1],
        by simpa using h2, by simpa using h3, h4, ?_, ?_⟩
      · intro k hk
        cases k with
        | zero => simpa [ht.s0] using hb
        | succ k => simpa using ht.body k (by simpa using hk)
      · intro k hk
        cases k with
        | zero => simp [ht.s0, ht.m0]
        | succ k => simpa using ht.mu k (by simpa using hk)
      · intro k hk
        cases k with
        | zero => simpa [ht.s0] using hx
        | succ k => simpa using ht.noexit k (by simpa using hk)
      · intro htm
        obtain ⟨a, b⟩ := h5 htm
        refine ⟨by simp [a], ?_⟩
        cases its with
        | nil =>
          intro i hi
          simp at hi; subst hi
          rw [h2, List.length_nil, ht.s0]; exact hx
        | cons j js => simpa [List.getLast?_cons_cons] using b
      · intro htm
        obtain ⟨i, hi, hxi⟩ := h6 htm
        refine ⟨i, ?_, hxi⟩
        cases its with
        | nil => simp at hi
        | cons j js => simpa [List.getLast?_cons_cons] using hi

/-- A trajectory of length `k` determines the loop with `k` iterations left. -/
theorem Traj.solveLoop {E : Eigen N K α} {p : QP N M K α} {prm : QPParams α} :
    ∀ {its : List (QPIteration α)} {st : IPState N M K α} {mu : α} {sts : Nat → IPState N M K α}
      {mus : Nat → α} (_ : Traj E p prm st mu its sts mus) (log : List (QPIteration α)),
      ∃ t, solveLoop E p prm its.length st mu log
          = .ok (sts its.length, ⟨t, log ++ its, lagrangeSummary (sts its.length).v.y⟩) ∧
        (t = .satisfiedKktTol ↔ ∃ it ∈ its.getLast?, ExitTest prm (sts its.length) it) := by
  intro its
  induction its with
  | nil =>
    intro st mu sts mus ht log
    exact ⟨.maxIterations, by simp [solveLoop_zero, ht.s0], by simp⟩
  | cons it its ih =>
    intro st mu sts mus ht log
    have hb := ht.body 0 (by simp)
    have hm := ht.mu 0 (by simp)
    simp only [ht.s0, ht.m0, List.getElem_cons_zero, Nat.zero_add] at hb hm
    have htail : Traj E p prm (sts 1) (mus 1) its (fun k => sts (k + 1)) (fun k => mus (k + 1)) :=
      ⟨rfl, rfl, fun k h => ht.body (k + 1) (by simpa using h),
        fun k h => ht.mu (k + 1) (by simpa using h),
        fun k h => ht.noexit (k + 1) (by simpa using h)⟩
    rcases solveLoop_succ E p prm its.length st mu log with
      ⟨e, he, hr⟩ | ⟨st2, it', hb', ⟨hx, hr⟩ | ⟨hx, hr⟩⟩
    · obtain ⟨⟨s1, h1, _⟩, _, _⟩ := hb; rw [h1] at he; cases he
    · obtain ⟨rfl, rfl⟩ := hb.unique hb'
      have hn : its = [] := by
        cases its with
        | nil => rfl
        | cons j js => exact absurd (by simpa using hx) (ht.noexit 0 (by simp))
      subst hn
      exact ⟨_, hr, by simpa using hx⟩
    · obtain ⟨rfl, rfl⟩ := hb.unique hb'
      obtain ⟨t, h1, h2⟩ := ih htail (log ++ [it])
      refine ⟨t, ?_, ?_⟩
      · simp only [List.length_cons]
        rw [hr, ← hm, h1]; simp
      · rw [h2]
        cases its with
        | nil => simpa using hx
        | cons j js => simp [List.getLast?_cons_cons]

/-- A prefix of a trajectory is a trajectory. -/
theorem Traj.take {E : Eigen N K α} {p : QP N M K α} {prm : QPParams α}
    {its : List (QPIteration α)} {st : IPState N M K α} {mu : α} {sts : Nat → IPState N M K α}
    {mus : Nat → α} (h : Traj E p prm st mu its sts mus) (k : Nat) :
    Traj E p prm st mu (its.take k) sts mus := by
  refine ⟨h.s0, h.m0, ?_, ?_, ?_⟩
  · intro i hi; simp only [List.getElem_take]; exact h.body i (by simp at hi; omega)
  · intro i hi; simp only [List.getElem_take]; exact h.mu i (by simp at hi; omega)
  · intro i hi; simp only [List.getElem_take]; exact h.noexit i (by simp at hi; omega)

/-- Only `barrierStrategy`, `sigma`, the tolerances and `decreaseMuOnlyOnSmallError` matter to it. -/
theorem Traj.maxIterations {E : Eigen N K α} {p : QP N M K α} {prm : QPParams α}
    {its : List (QPIteration α)} {st : IPState N M K α} {mu : α} {sts : Nat → IPState N M K α}
    {mus : Nat → α} (h : Traj E p prm st mu its sts mus) (k : Int) :
    Traj E p { prm with maxIterations := k } st mu its sts mus :=
  ⟨h.s0, h.m0, fun i hi => ⟨(h.body i hi).out, (h.body i hi).init, (h.body i hi).fin⟩,
    fun i hi => h.mu i hi, fun i hi => h.noexit i hi⟩

/-- The trajectory of a successful `Solve`. -/
theorem solve_traj {E : Eigen N K α} {p : QP N M K α} {prm : QPParams α} {st : IPState N M K α}
    {r : IPState N M K α × QPOutputs α} (h : solve E p prm st = .ok r) :
    ∃ st0 sts mus, initialGuess E p prm.initialGuessMethod st = .ok st0 ∧
      Traj E p prm (evaluateKKT p true st0) (initialMu prm (evaluateKKT p true st0))
        r.2.iterations sts mus ∧
      0 < r.2.iterations.length ∧ (r.2.iterations.length : Int) ≤ prm.maxIterations ∧
      r.1 = sts r.2.iterations.length ∧ r.2.lagrange = lagrangeSummary r.1.v.y ∧
      (r.2.termination = .maxIterations → (r.2.iterations.length : Int) = prm.maxIterations ∧
          ∀ it ∈ r.2.iterations.getLast?, ¬ ExitTest prm r.1 it) ∧
      (r.2.termination = .satisfiedKktTol → ∃ it ∈ r.2.iterations.getLast?, ExitTest prm r.1 it) := by
  obtain ⟨hc, st0, h0, hl⟩ := solve_ok h
  have hmax := ((checkParams_ok_iff prm).mp hc).2.2.2.2
  obtain ⟨its, sts, mus, ht, h1, h2, h3, h4, h5, h6⟩ := solveLoop_traj E p prm _ _ _ _ r hl
  rw [List.nil_append] at h1
  subst h1
  refine ⟨st0, sts, mus, h0, ht, ?_, by omega, h2, h4, ?_, h6⟩
  · rcases hT : r.2.termination with _ | _
    · obtain ⟨it, hi, _⟩ := h6 hT
      cases hL : r.2.iterations with
      | nil => rw [hL] at hi; simp at hi
      | cons _ _ => simp
    · rw [(h5 hT).1]; omega
  · intro hT; obtain ⟨a, b⟩ := h5 hT; exact ⟨by omega, b⟩

/-- The observable `k`-th iterate: running the same call with `max_iterations = k`. -/
theorem solve_truncated {E : Eigen N K α} {p : QP N M K α} {prm : QPParams α} {st st0 : IPState N M K α}
    {its : List (QPIteration α)} {sts : Nat → IPState N M K α} {mus : Nat → α}
    (hc : checkParams prm = .ok ())
    (h0 : initialGuess E p prm.initialGuessMethod st = .ok st0)
    (ht : Traj E p prm (evaluateKKT p true st0) (initialMu prm (evaluateKKT p true st0)) its sts mus)
    {k : Nat} (hk0 : 0 < k) (hk : k ≤ its.length) :
    ∃ t, solve E p { prm with maxIterations := k } st
        = .ok (sts k, ⟨t, its.take k, lagrangeSummary (sts k).v.y⟩) ∧
      (k < its.length → t = .maxIterations) := by
  have hc' : checkParams { prm with maxIterations := (k : Int) } = .ok () := by
    rw [checkParams_ok_iff] at hc ⊢
    exact ⟨hc.1, hc.2.1, hc.2.2.1, hc.2.2.2.1, by simpa using hk0⟩
  have hlen : (its.take k).length = k := by simp [hk]
  obtain ⟨t, h1, h2⟩ := ((ht.take k).maxIterations (k : Int)).solveLoop []
  rw [hlen] at h1 h2
  refine ⟨t, ?_, ?_⟩
  · unfold solve
    rw [hc']; simp only
    rw [h0]; simp only [Int.toNat_natCast]
    exact h1
  · intro hlt
    cases t with
    | maxIterations => rfl
    | satisfiedKktTol =>
      obtain ⟨it, hi, hx⟩ := h2.mp rfl
      exfalso
      obtain ⟨j, rfl⟩ : ∃ j, k = j + 1 := ⟨k - 1, by omega⟩
      refine ht.noexit j hlt ?_
      have : (its.take (j + 1)).getLast? = some its[j] := by
        rw [List.getLast?_eq_getElem?, hlen]; simp
      rw [this] at hi
      simp only [Option.mem_def, Option.some.injEq] at hi; subst hi; exact hx

end MiniOpt.IP
