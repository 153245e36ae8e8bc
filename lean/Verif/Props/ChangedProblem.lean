import Verif.Model.Sizes
import Verif.Props.Totality
import Verif.Props.NullSpace
import Verif.Props.QPIterates
import Verif.Lemmas.DemoReal

/-!
# C85: changing the `Problem` after the solver has been constructed

The solver object sizes its buffers in the constructor and reads the problem again at every `Solve`.
-/

set_option autoImplicit false

namespace MiniOpt.Props

open MiniOpt MiniOpt.Spec MiniOpt.NLS

variable {α : Type} [Scalar α] {n D : Nat}

/-- Number of equality rows of a problem: the dimensions of its equality constraints added up. -/
def equalityRows (p : Problem D α) : Nat := (p.eqs.map (·.dim)).sum

/-- A linearised problem with equality rows that are identically zero appended, up to `K'` rows. -/
def withZeroRows {M K : Nat} (q : QPData D M K α) (K' : Nat) : QPData D M K' α where
  G := q.G
  c := q.c
  A k := if h : k.val < K then q.A ⟨k.val, h⟩ else fun _ => 0
  b k := if h : k.val < K then q.b ⟨k.val, h⟩ else 0
  con := q.con

/-! ## The constructor -/

omit [Scalar α] in
theorem foldl_max_ge (l : List (Residual α)) : ∀ m : Nat, m ≤ l.foldl (fun m r => max m r.dim) m := by
  induction l with
  | nil => intro m; exact le_rfl
  | cons r l ih => intro m; exact le_trans (le_max_left _ _) (ih _)

omit [Scalar α] in
theorem foldl_max_spec (l : List (Residual α)) : ∀ m : Nat, (∀ r ∈ l, r.dim ≤ l.foldl (fun m r => max m r.dim) m) ∧
    (l.foldl (fun m r => max m r.dim) m = m ∨ ∃ r ∈ l, r.dim = l.foldl (fun m r => max m r.dim) m) := by
  induction l with
  | nil => intro m; simp
  | cons r l ih =>
    intro m
    obtain ⟨h1, h2⟩ := ih (max m r.dim)
    have h3 := foldl_max_ge l (max m r.dim)
    simp only [List.foldl_cons]
    refine ⟨?_, ?_⟩
    · intro q hq
      rcases List.mem_cons.mp hq with rfl | hq
      · exact le_trans (le_max_right _ _) h3
      · exact h1 q hq
    · rcases h2 with h2 | ⟨q, hq, h2⟩
      · rcases le_total r.dim m with h | h
        · left; rw [h2]; exact max_eq_left h
        · right; exact ⟨r, by simp, by rw [h2]; exact (max_eq_right h).symm⟩
      · right; exact ⟨q, by simp [hq], h2⟩

omit [Scalar α] in
theorem foldl_pair (l : List (Residual α)) : ∀ t m : Nat,
    l.foldl (fun (s : Nat × Nat) r => (s.1 + r.dim, max s.2 r.dim)) (t, m)
      = (t + (l.map (·.dim)).sum, l.foldl (fun m r => max m r.dim) m) := by
  induction l with
  | nil => intro t m; simp
  | cons r l ih =>
    intro t m
    simp only [List.foldl_cons, List.map_cons, List.sum_cons]
    rw [ih, add_assoc]

omit [Scalar α] in
/-- **C85** (the sizes). The constructor makes room for all equality rows of the problem, and a buffer as long as the
longest residual among costs and equality constraints, and no longer. -/
theorem C85_constructor (p : Problem D α) :
    (construct p).dim = D ∧ (construct p).rows = equalityRows p ∧
    (∀ r ∈ p.costs ++ p.eqs, r.dim ≤ (construct p).buffer) ∧
    ((construct p).buffer = 0 ∨ ∃ r ∈ p.costs ++ p.eqs, r.dim = (construct p).buffer) := by
  have hb : construct p = ⟨D, equalityRows p,
      p.costs.foldl (fun m r => max m r.dim) (p.eqs.foldl (fun m r => max m r.dim) 0)⟩ := by
    simp only [construct, foldl_pair, zero_add, equalityRows]
  rw [hb]
  obtain ⟨e1, e2⟩ := foldl_max_spec p.eqs 0
  obtain ⟨c1, c2⟩ := foldl_max_spec p.costs (p.eqs.foldl (fun m r => max m r.dim) 0)
  refine ⟨rfl, rfl, ?_, ?_⟩
  · intro r hr
    rcases List.mem_append.mp hr with hr | hr
    · exact c1 r hr
    · exact le_trans (e1 r hr) (foldl_max_ge _ _)
  · rcases c2 with c2 | ⟨r, hr, c2⟩
    · rcases e2 with e2 | ⟨r, hr, e2⟩
      · left; exact c2.trans e2
      · right; exact ⟨r, by simp [hr], by rw [e2]; exact c2.symm⟩
    · right; exact ⟨r, by simp [hr], c2⟩

/-! ## Linearising -/

omit [Scalar α] in
theorem setRows_widen {β : Type} {K K' d : Nat} (z : β) (A : Fin K → β) (row : Nat) (B : Fin d → β)
    (h : row + d ≤ K) :
    (fun k : Fin K' => if h : k.val < K then setRows A row B ⟨k.val, h⟩ else z)
      = setRows (fun k : Fin K' => if h : k.val < K then A ⟨k.val, h⟩ else z) row B := by
  funext k
  unfold setRows
  by_cases hk : k.val < K
  · rw [dif_pos hk]
    by_cases hr : row ≤ k.val ∧ k.val < row + d
    · rw [dif_pos hr, dif_pos hr]
    · rw [dif_neg hr, dif_neg hr]; dsimp only; rw [dif_pos hk]
  · rw [dif_neg hk, dif_neg (by omega)]; dsimp only; rw [dif_neg hk]

/-- More rows than needed: the same rows are filled, the others stay. -/
theorem linEqs_widen {K K' : Nat} (hK : K ≤ K') (x : Fin n → α) : ∀ (l : List (Residual α)) (row : Nat)
    (A : Fin K → Fin D → α) (b : Fin K → α) (err : α), row + (l.map (·.dim)).sum ≤ K →
    (linEqs x l row (fun k : Fin K' => if h : k.val < K then A ⟨k.val, h⟩ else fun _ => 0)
        (fun k : Fin K' => if h : k.val < K then b ⟨k.val, h⟩ else 0) err).mapError Prod.fst
      = ((linEqs x l row A b err).mapError Prod.fst).map fun r =>
          ((fun k : Fin K' => if h : k.val < K then r.1 ⟨k.val, h⟩ else fun _ => 0),
            (fun k : Fin K' => if h : k.val < K then r.2.1 ⟨k.val, h⟩ else 0), r.2.2) := by
  intro l
  induction l with
  | nil => intro row A b err _; rfl
  | cons r l ih =>
    intro row A b err hrow
    simp only [List.map_cons, List.sum_cons] at hrow
    have h1 : row + r.dim ≤ K := by omega
    have gA : getRows (fun k : Fin K' => if h : k.val < K then A ⟨k.val, h⟩ else fun _ => 0) row (by omega : row + r.dim ≤ K')
        = getRows A row h1 := by
      funext k
      unfold getRows
      exact dif_pos (show row + k.val < K by have := k.isLt; omega)
    have gb : getRows (fun k : Fin K' => if h : k.val < K then b ⟨k.val, h⟩ else 0) row (by omega : row + r.dim ≤ K')
        = getRows b row h1 := by
      funext k
      unfold getRows
      exact dif_pos (show row + k.val < K by have := k.isLt; omega)
    simp only [linEqs]
    rw [dif_pos (by omega : row + r.dim ≤ K'), dif_pos h1, gA, gb]
    cases hj : r.updateJacobian x r.dim r.dim (getRows A row h1) (getRows b row h1) with
    | error e => rfl
    | ok res =>
      obtain ⟨A1, b1⟩ := res
      simp only
      rw [← setRows_widen (fun _ => 0) A row A1 h1, ← setRows_widen 0 b row b1 h1]
      exact ih (row + r.dim) _ _ _ (by omega)

theorem linearizeSized_eq (s : Sizes) (p : Problem D α) (x : Fin n → α) (lambda : α)
    (qp : QPData D p.M p.K α) (hd : s.dim = D) (hr : equalityRows p ≤ s.rows) :
    linearizeSized s p x lambda = ((linearize p x lambda qp).mapError Prod.fst).map
      fun r => (withZeroRows r.1 s.rows, r.2) := by
  unfold linearizeSized linearize
  rw [if_neg (not_not.mpr hd)]
  cases hc : linCosts x p.costs (fun _ _ => 0) (fun _ => 0) 0 with
  | error e => rfl
  | ok res =>
    obtain ⟨G, c, f⟩ := res
    simp only
    have hz : (fun k : Fin s.rows => if h : k.val < p.K then (fun _ : Fin p.K => fun _ : Fin D => (0 : α)) ⟨k.val, h⟩
        else fun _ => 0) = fun _ _ => 0 := by funext k; split_ifs <;> rfl
    have hz' : (fun k : Fin s.rows => if h : k.val < p.K then (fun _ : Fin p.K => (0 : α)) ⟨k.val, h⟩ else 0)
        = fun _ => 0 := by funext k; split_ifs <;> rfl
    have hw := linEqs_widen (D := D) (show p.K ≤ s.rows from hr) x p.eqs 0 (fun _ _ => 0) (fun _ => 0) 0
      (by rw [zero_add])
    rw [hz, hz'] at hw
    cases h1 : linEqs x p.eqs 0 (fun (_ : Fin p.K) (_ : Fin D) => (0 : α)) (fun _ => 0) 0 with
    | error e =>
      rw [h1] at hw
      cases h2 : linEqs x p.eqs 0 (fun (_ : Fin s.rows) (_ : Fin D) => (0 : α)) (fun _ => 0) 0 with
      | error e' =>
        rw [h2] at hw
        simp only [Except.mapError, Except.map, Except.error.injEq] at hw
        simp only [Except.mapError, Except.map, hw]
      | ok r => rw [h2] at hw; cases hw
    | ok r1 =>
      rw [h1] at hw
      cases h2 : linEqs x p.eqs 0 (fun (_ : Fin s.rows) (_ : Fin D) => (0 : α)) (fun _ => 0) 0 with
      | error e' => rw [h2] at hw; cases hw
      | ok r2 =>
        rw [h2] at hw
        simp only [Except.mapError, Except.map, Except.ok.injEq] at hw
        subst hw
        obtain ⟨A, b, e⟩ := r1
        simp only
        cases h3 : shiftLoop x p.ineq with
        | error e => rfl
        | ok con => rfl

/-- **C85** (nothing changed). On the problem the object was constructed for, linearising and evaluating behave as
described for a fixed problem in the model of the whole solver (`NLS.linearize`, `NLS.evalErrors`). -/
theorem C85_unchanged_linearize (p : Problem D α) (x : Fin n → α) (lambda : α) (qp : QPData D p.M p.K α) :
    linearizeSized (construct p) p x lambda = ((linearize p x lambda qp).mapError Prod.fst).map
      fun r => (withZeroRows r.1 (construct p).rows, r.2) :=
  linearizeSized_eq _ p x lambda qp (C85_constructor p).1 (le_of_eq (C85_constructor p).2.1.symm)

/-- **C85** (beginning of a solve). With valid parameters and at least one iteration allowed, `Solve` on an object newly
constructed for its problem begins with the linearisation the solver model uses, at `lambda_initial`; with
`max_iterations = 0` it does not linearise. -/
theorem C85_unchanged_start (p : Problem D α) (prm : NLSParams α) (x : Fin n → α) (hv : NLSParamsValid prm)
    (qp : QPData D p.M p.K α) :
    (0 < prm.maxIterations → solveStart (construct p) p prm x
      = ((linearize p x prm.lambdaInitial qp).mapError Prod.fst).map
        fun r => some (withZeroRows r.1 (construct p).rows, r.2)) ∧
    (prm.maxIterations = 0 → solveStart (construct p) p prm x = .ok none) := by
  have hp : NLS.checkParams prm = .ok () := (checkParams_iff prm).mpr hv
  unfold solveStart
  rw [hp]
  refine ⟨fun hi => ?_, fun hi => by simp [hi]⟩
  simp only [hi, if_true]
  rw [C85_unchanged_linearize p x prm.lambdaInitial qp]
  cases linearize p x prm.lambdaInitial qp <;> rfl

/-- **C85** (room enough). An object of the right dimension with at least as many equality rows as the problem it now
finds linearises it exactly like an object newly constructed for it — the same outcome, the same errors, the same cost
model and bounds — with zero rows appended to the equality constraints if there are rows to spare. -/
theorem C85_enough_rows (s : Sizes) (p : Problem D α) (x : Fin n → α) (lambda : α) (hd : s.dim = D)
    (hr : equalityRows p ≤ s.rows) :
    linearizeSized s p x lambda = (linearizeSized (construct p) p x lambda).map
      fun r => (withZeroRows r.1 s.rows, r.2) := by
  let qp : QPData D p.M p.K α := ⟨fun _ _ => 0, fun _ => 0, fun _ _ => 0, fun _ => 0, fun _ => ⟨0, 0, 0⟩⟩
  rw [linearizeSized_eq s p x lambda qp hd hr, C85_unchanged_linearize p x lambda qp]
  have hk := (C85_constructor p).2.1
  cases linearize p x lambda qp with
  | error e => rfl
  | ok r =>
    simp only [Except.mapError, Except.map, withZeroRows]
    refine congrArg Except.ok (Prod.ext ?_ rfl)
    simp only [QPData.mk.injEq, true_and, and_true]
    refine ⟨?_, ?_⟩
    · funext k
      by_cases h : k.val < p.K
      · have h' : k.val < (construct p).rows := by rw [hk]; exact h
        rw [dif_pos h, dif_pos h', dif_pos h]
      · have h' : ¬ k.val < (construct p).rows := by rw [hk]; exact h
        rw [dif_neg h, dif_neg h']
    · funext k
      by_cases h : k.val < p.K
      · have h' : k.val < (construct p).rows := by rw [hk]; exact h
        rw [dif_pos h, dif_pos h', dif_pos h]
      · have h' : ¬ k.val < (construct p).rows := by rw [hk]; exact h
        rw [dif_neg h, dif_neg h']

theorem linEqs_short {K : Nat} (x : Fin n → α) : ∀ (l : List (Residual α)) (row : Nat)
    (A : Fin K → Fin D → α) (b : Fin K → α) (err : α), row ≤ K → K < row + (l.map (·.dim)).sum →
    (∀ r, linEqs x l row A b err ≠ .ok r) ∧
    ((∀ r ∈ l, IdxIn r n ∧ IdxIn r D ∧ QuietJ r x) →
      ∃ a, linEqs x l row A b err = .error (.assertion "row + dim <= qp->A_eq.rows()", a)) := by
  intro l
  induction l with
  | nil => intro row A b err h1 h2; simp at h2; omega
  | cons r l ih =>
    intro row A b err h1 h2
    simp only [List.map_cons, List.sum_cons] at h2
    simp only [linEqs]
    by_cases h : row + r.dim ≤ K
    · rw [dif_pos h]
      refine ⟨?_, ?_⟩
      · intro res
        split
        · exact fun h => by cases h
        · exact (ih _ _ _ _ h (by omega)).1 res
      · intro hl
        have hr := hl r (by simp)
        rw [updateJacobian_ok r x hr.1 hr.2.1 (by rw [params_eq]; exact hr.2.2)]
        exact (ih _ _ _ _ h (by omega)).2 fun q hq => hl q (by simp [hq])
    · rw [dif_neg h]
      exact ⟨fun _ h => (by cases h), fun _ => ⟨_, rfl⟩⟩

theorem linCosts_ok (x : Fin n → α) : ∀ (l : List (Residual α)) (G : Fin D → Fin D → α) (c : Fin D → α) (f : α),
    (∀ r ∈ l, IdxIn r n ∧ IdxIn r D ∧ QuietJ r x) → ∃ q, linCosts x l G c f = .ok q := by
  intro l
  induction l with
  | nil => intro G c f _; exact ⟨_, rfl⟩
  | cons r l ih =>
    intro G c f h
    have hr := h r (by simp)
    simp only [linCosts]
    rw [updateHessian_ok r x hr.1 hr.2.1 (by rw [params_eq]; exact hr.2.2)]
    exact ih _ _ _ fun q hq => h q (by simp [hq])

/-- **C85** (equality constraints added). If the problem has meanwhile got more equality rows than the object has room
for, no `Solve` that makes an iteration gets past its first linearisation; if nothing else is wrong (valid indices, no
callable throws at the start), it throws the assertion about the rows of `A_eq`, before any step is computed and before
the callback is called. -/
theorem C85_too_many_rows (s : Sizes) (p : Problem D α) (prm : NLSParams α) (x : Fin n → α) (hd : s.dim = D)
    (hr : s.rows < equalityRows p) (hv : NLSParamsValid prm) (hi : 0 < prm.maxIterations) :
    (∀ r, solveStart s p prm x ≠ .ok r) ∧
    (IndicesOk p n → IndicesOk p D → QuietJP p x →
      solveStart s p prm x = .error (.assertion "row + dim <= qp->A_eq.rows()")) := by
  have h0 : (0 : Nat) + (p.eqs.map (·.dim)).sum = equalityRows p := zero_add _
  obtain ⟨hs1, hs2⟩ := linEqs_short (D := D) (K := s.rows) x p.eqs 0 (fun _ _ => 0) (fun _ => 0) 0 (Nat.zero_le _)
    (by rw [h0]; exact hr)
  have hp : NLS.checkParams prm = .ok () := (checkParams_iff prm).mpr hv
  unfold solveStart
  rw [hp]
  simp only [hi, if_true]
  unfold linearizeSized
  rw [if_neg (not_not.mpr hd)]
  refine ⟨?_, ?_⟩
  · intro r
    cases hc : linCosts x p.costs (fun (_ _ : Fin D) => (0 : α)) (fun _ => 0) 0 with
    | error e => exact fun h => by cases h
    | ok res =>
      obtain ⟨G, c, f⟩ := res
      simp only
      cases he : linEqs x p.eqs 0 (fun (_ : Fin s.rows) (_ : Fin D) => (0 : α)) (fun _ => 0) 0 with
      | error e => exact fun h => by cases h
      | ok res => exact absurd he (hs1 res)
  · intro h1 h2 h3
    obtain ⟨⟨G, c, f⟩, hc⟩ := linCosts_ok (D := D) x p.costs (fun _ _ => 0) (fun _ => 0) 0
      fun r hr => ⟨h1 r (by simp [hr]), h2 r (by simp [hr]), h3 r (by simp [hr])⟩
    obtain ⟨a, he⟩ := hs2 fun r hr => ⟨h1 r (by simp [hr]), h2 r (by simp [hr]), h3 r (by simp [hr])⟩
    rw [hc]
    simp only
    rw [he]

/-- **C85** (dimension changed). If `problem.dimension` is not what it was at construction, every `Solve` that makes an
iteration throws the assertion about the size of `G`. -/
theorem C85_dimension_changed (s : Sizes) (p : Problem D α) (prm : NLSParams α) (x : Fin n → α) (hd : s.dim ≠ D)
    (hv : NLSParamsValid prm) (hi : 0 < prm.maxIterations) :
    solveStart s p prm x = .error (.assertion "qp->G.rows() == problem.dimension") := by
  have hp : NLS.checkParams prm = .ok () := (checkParams_iff prm).mpr hv
  unfold solveStart
  rw [hp]
  simp only [hi, if_true]
  unfold linearizeSized
  rw [if_pos hd]

/-- **C85** (equality constraints removed). If the problem has meanwhile got fewer equality rows than the object has
room for, the object linearises without complaint, but the problem it passes on has an equality row that is identically
zero. Hence the matrix that the interior point solver factorises is singular at every iterate, and the null-space solver
runs into undefined behaviour. -/
theorem C85_too_few_rows (s : Sizes) (p : Problem D ℝ) (x : Fin n → ℝ) (lambda : ℝ) (hd : s.dim = D)
    (hr : equalityRows p < s.rows) (q : QPData D p.M s.rows ℝ) (e : Errors ℝ)
    (h : linearizeSized s p x lambda = .ok (q, e)) :
    (∃ k, (∀ j, q.A k j = 0) ∧ q.b k = 0) ∧
    (∀ hc v, ¬ IsUnit (reducedMatrix (q.typed hc) v).det) ∧
    (∀ E : NSEigen ℝ, QRContract E → ∀ st,
      ∃ tag, NS.solve E (⟨q.G, q.c, q.A, q.b, Fin.elim0⟩ : QP D 0 s.rows ℝ) st = .error (.ub tag, st)) := by
  let qp : QPData D p.M p.K ℝ := ⟨fun _ _ => 0, fun _ => 0, fun _ _ => 0, fun _ => 0, fun _ => ⟨0, 0, 0⟩⟩
  rw [linearizeSized_eq s p x lambda qp hd hr.le] at h
  cases hl : linearize p x lambda qp with
  | error e' => rw [hl] at h; cases h
  | ok r =>
    rw [hl] at h
    simp only [Except.mapError, Except.map, Except.ok.injEq, Prod.mk.injEq] at h
    obtain ⟨rfl, rfl⟩ := h
    let k : Fin s.rows := ⟨equalityRows p, hr⟩
    have hk : ¬ k.val < p.K := lt_irrefl _
    have hA : ∀ j, (withZeroRows r.1 s.rows).A k j = 0 := fun j => by
      show (if h : k.val < p.K then r.1.A ⟨k.val, h⟩ else fun _ => 0) j = 0
      rw [dif_neg hk]
    have hb : (withZeroRows r.1 s.rows).b k = 0 := dif_neg hk
    have hdep : ∀ {M : Nat} (Q : QP D M s.rows ℝ), Q.A = (withZeroRows r.1 s.rows).A → ¬ IndependentRows Q := by
      intro M Q hQ hind
      have h0 := hind (Pi.single k 1) (fun i => by
        refine Finset.sum_eq_zero fun m _ => ?_
        by_cases hm : m = k
        · subst hm; rw [hQ, hA]; simp
        · simp [hm])
      have := congrFun h0 k
      simp at this
    refine ⟨⟨k, hA, hb⟩, fun hc v => C24_dependent_rows_singular _ v (hdep _ rfl), fun E hE st => ?_⟩
    exact (C27_needs_independent_rows E hE _ st).2.1 (lt_of_le_of_lt (Nat.zero_le _) hr) (hdep _ rfl)

/-! ## Evaluating -/

theorem evalCostsSized_eq {buffer : Nat} (x : Fin n → α) : ∀ (l : List (Residual α)) (f : α),
    (∀ r ∈ l, r.dim ≤ buffer) → evalCostsSized buffer x l f = evalCosts x l f := by
  intro l
  induction l with
  | nil => intro f _; rfl
  | cons r l ih =>
    intro f h
    simp only [evalCostsSized, evalCosts, bufferedError, if_neg (not_lt.mpr (h r (by simp)))]
    cases r.errorVector x r.dim with
    | error e => rfl
    | ok v => exact ih _ fun q hq => h q (by simp [hq])

theorem evalEqsSized_eq {buffer : Nat} (x : Fin n → α) : ∀ (l : List (Residual α)) (f : α),
    (∀ r ∈ l, r.dim ≤ buffer) → evalEqsSized buffer x l f = evalEqs x l f := by
  intro l
  induction l with
  | nil => intro f _; rfl
  | cons r l ih =>
    intro f h
    simp only [evalEqsSized, evalEqs, bufferedError, if_neg (not_lt.mpr (h r (by simp)))]
    cases r.errorVector x r.dim with
    | error e => rfl
    | ok v => exact ih _ fun q hq => h q (by simp [hq])

theorem errorVector_quiet (r : Residual α) (x : Fin n → α) (hi : IdxIn r n) (hq : Quiet r x) :
    r.errorVector x r.dim = .ok (valueAt r x) := (errorVector_ok_iff r x _).mpr ⟨⟨hi, hq⟩, rfl⟩

theorem evalCostsSized_short {buffer : Nat} (x : Fin n → α) : ∀ (l : List (Residual α)) (f : α),
    (∃ r ∈ l, buffer < r.dim) → (∀ v, evalCostsSized buffer x l f ≠ .ok v) ∧
    ((∀ r ∈ l, IdxIn r n ∧ Quiet r x) → ∃ t, evalCostsSized buffer x l f = .error (.ub t)) := by
  intro l
  induction l with
  | nil => rintro f ⟨r, hr, _⟩; cases hr
  | cons r l ih =>
    rintro f ⟨q, hq, hlt⟩
    simp only [evalCostsSized, bufferedError]
    by_cases h : buffer < r.dim
    · rw [if_pos h]
      exact ⟨fun _ h => (by cases h), fun _ => ⟨_, rfl⟩⟩
    · rw [if_neg h]
      have hq' : q ∈ l := by
        rcases List.mem_cons.mp hq with rfl | hq
        · exact absurd hlt h
        · exact hq
      refine ⟨?_, ?_⟩
      · intro v
        split
        · exact fun h => by cases h
        · exact (ih _ ⟨q, hq', hlt⟩).1 v
      · intro hl
        rw [errorVector_quiet r x (hl r (by simp)).1 (hl r (by simp)).2]
        exact (ih _ ⟨q, hq', hlt⟩).2 fun r hr => hl r (by simp [hr])

theorem evalEqsSized_short {buffer : Nat} (x : Fin n → α) : ∀ (l : List (Residual α)) (f : α),
    (∃ r ∈ l, buffer < r.dim) → (∀ v, evalEqsSized buffer x l f ≠ .ok v) ∧
    ((∀ r ∈ l, IdxIn r n ∧ Quiet r x) → ∃ t, evalEqsSized buffer x l f = .error (.ub t)) := by
  intro l
  induction l with
  | nil => rintro f ⟨r, hr, _⟩; cases hr
  | cons r l ih =>
    rintro f ⟨q, hq, hlt⟩
    simp only [evalEqsSized, bufferedError]
    by_cases h : buffer < r.dim
    · rw [if_pos h]
      exact ⟨fun _ h => (by cases h), fun _ => ⟨_, rfl⟩⟩
    · rw [if_neg h]
      have hq' : q ∈ l := by
        rcases List.mem_cons.mp hq with rfl | hq
        · exact absurd hlt h
        · exact hq
      refine ⟨?_, ?_⟩
      · intro v
        split
        · exact fun h => by cases h
        · exact (ih _ ⟨q, hq', hlt⟩).1 v
      · intro hl
        rw [errorVector_quiet r x (hl r (by simp)).1 (hl r (by simp)).2]
        exact (ih _ ⟨q, hq', hlt⟩).2 fun r hr => hl r (by simp [hr])

theorem evalCosts_ok (x : Fin n → α) : ∀ (l : List (Residual α)) (f : α),
    (∀ r ∈ l, IdxIn r n ∧ Quiet r x) → ∃ v, evalCosts x l f = .ok v := by
  intro l
  induction l with
  | nil => intro f _; exact ⟨_, rfl⟩
  | cons r l ih =>
    intro f h
    simp only [evalCosts]
    rw [errorVector_quiet r x (h r (by simp)).1 (h r (by simp)).2]
    exact ih _ fun q hq => h q (by simp [hq])

/-- **C85** (the error buffer). If every residual of the problem fits into the buffer, evaluating the errors does what
it does for a fixed problem. If some residual does not, no evaluation returns; if nothing else is wrong, it writes past
the end of the buffer. -/
theorem C85_evaluate (s : Sizes) (p : Problem D α) (x : Fin n → α) :
    ((∀ r ∈ p.costs ++ p.eqs, r.dim ≤ s.buffer) → evalErrorsSized s p x = evalErrors p x) ∧
    ((∃ r ∈ p.costs ++ p.eqs, s.buffer < r.dim) → (∀ e, evalErrorsSized s p x ≠ .ok e) ∧
      (IndicesOk p n → QuietP p x → ∃ t, evalErrorsSized s p x = .error (.ub t))) := by
  refine ⟨?_, ?_⟩
  · intro h
    unfold evalErrorsSized evalErrors
    rw [evalCostsSized_eq x p.costs 0 fun r hr => h r (by simp [hr])]
    cases evalCosts x p.costs 0 with
    | error e => rfl
    | ok f =>
      simp only
      rw [evalEqsSized_eq x p.eqs 0 fun r hr => h r (by simp [hr])]
      cases evalEqs x p.eqs 0 <;> rfl
  · rintro ⟨r, hr, hlt⟩
    by_cases hcost : ∃ r ∈ p.costs, s.buffer < r.dim
    · obtain ⟨h1, h2⟩ := evalCostsSized_short x p.costs 0 hcost
      unfold evalErrorsSized
      refine ⟨?_, ?_⟩
      · intro e
        cases hc : evalCostsSized s.buffer x p.costs 0 with
        | error e => exact fun h => by cases h
        | ok f => exact absurd hc (h1 f)
      · intro hi hq
        obtain ⟨t, ht⟩ := h2 fun r hr => ⟨hi r (by simp [hr]), hq r (by simp [hr])⟩
        exact ⟨t, by rw [ht]⟩
    · push Not at hcost
      have heq : ∃ r ∈ p.eqs, s.buffer < r.dim := by
        rcases List.mem_append.mp hr with hr | hr
        · exact absurd hlt (not_lt.mpr (hcost r hr))
        · exact ⟨r, hr, hlt⟩
      obtain ⟨h1, h2⟩ := evalEqsSized_short x p.eqs 0 heq
      unfold evalErrorsSized
      rw [evalCostsSized_eq x p.costs 0 hcost]
      refine ⟨?_, ?_⟩
      · intro e
        cases hc : evalCosts x p.costs 0 with
        | error e => exact fun h => by cases h
        | ok f =>
          simp only
          cases he : evalEqsSized s.buffer x p.eqs 0 with
          | error e => exact fun h => by cases h
          | ok v => exact absurd he (h1 v)
      · intro hi hq
        obtain ⟨f, hf⟩ := evalCosts_ok x p.costs 0 fun r hr => ⟨hi r (by simp [hr]), hq r (by simp [hr])⟩
        obtain ⟨t, ht⟩ := h2 fun r hr => ⟨hi r (by simp [hr]), hq r (by simp [hr])⟩
        exact ⟨t, by rw [hf]; simp only; rw [ht]⟩

/-- **C85** (changes that are allowed). Costs, inequality constraints and equality constraints may be replaced freely
between two `Solve` calls as long as the dimension and the number of equality rows stay the same and no residual is
longer than the longest one at construction: linearising and evaluating are then what they are for an object newly
constructed for the new problem. -/
theorem C85_replaced (p p' : Problem D α) (x : Fin n → α) (lambda : α) (hr : equalityRows p' = equalityRows p)
    (hb : ∀ r ∈ p'.costs ++ p'.eqs, ∃ r0 ∈ p.costs ++ p.eqs, r.dim ≤ r0.dim) :
    linearizeSized (construct p) p' x lambda = (linearizeSized (construct p') p' x lambda).map
      (fun r => (withZeroRows r.1 (construct p).rows, r.2)) ∧
    (construct p).rows = (construct p').rows ∧
    evalErrorsSized (construct p) p' x = evalErrorsSized (construct p') p' x := by
  obtain ⟨c1, c2, c3, -⟩ := C85_constructor p
  obtain ⟨-, d2, d3, -⟩ := C85_constructor p'
  refine ⟨C85_enough_rows _ p' x lambda c1 (by rw [c2, hr]), by rw [c2, d2, hr], ?_⟩
  rw [(C85_evaluate _ p' x).1 d3, (C85_evaluate _ p' x).1 fun r hr => ?_]
  obtain ⟨r0, h0, hle⟩ := hb r hr
  exact hle.trans (c3 r0 h0)

/-! ## Examples -/

/-- A residual of dimension `d` that returns its one parameter `d` times. -/
noncomputable def repeated (d : Nat) : Residual ℝ where
  dim := d
  P := 1
  index _ := 0
  value q _ := q 0
  valueJ q _ := q 0
  jac _ _ _ := 1

/-- One variable, a cost of dimension 2 and an equality constraint of dimension 1. -/
noncomputable def small : Problem 1 ℝ := ⟨[repeated 2], [], [repeated 1]⟩

/-- The same with a second equality constraint. -/
noncomputable def grown : Problem 1 ℝ := ⟨[repeated 2], [], [repeated 1, repeated 1]⟩

/-- The same without equality constraints. -/
noncomputable def shrunk : Problem 1 ℝ := ⟨[repeated 2], [], []⟩

/-- The same with a longer cost. -/
noncomputable def longer : Problem 1 ℝ := ⟨[repeated 3], [], [repeated 1]⟩

theorem idx_repeated (d : Nat) : IdxIn (repeated d) 1 := fun _ => ⟨le_refl 0, Int.one_pos⟩

example : construct small = ⟨1, 1, 2⟩ := by simp [construct, small, repeated]

example : (∀ r, solveStart (construct small) grown NLSParams.default (fun _ : Fin 1 => (0 : ℝ)) ≠ .ok r) ∧
    solveStart (construct small) grown NLSParams.default (fun _ : Fin 1 => (0 : ℝ))
      = .error (.assertion "row + dim <= qp->A_eq.rows()") := by
  have h := C85_too_many_rows (construct small) grown NLSParams.default (fun _ : Fin 1 => (0 : ℝ)) rfl
    (by simp [construct, small, equalityRows, grown, repeated]) DemoReal.nls_default_valid (by simp [NLSParams.default])
  refine ⟨h.1, h.2 ?_ ?_ ?_⟩
  · intro r hr; simp [grown] at hr; rcases hr with rfl | rfl <;> exact idx_repeated _
  · intro r hr; simp [grown] at hr; rcases hr with rfl | rfl <;> exact idx_repeated _
  · intro r hr; simp [grown] at hr; rcases hr with rfl | rfl <;> rfl

example : ∃ r, linearizeSized (construct small) shrunk (fun _ : Fin 1 => (0 : ℝ)) 0 = .ok r := by
  obtain ⟨⟨G, c, f⟩, hc⟩ := linCosts_ok (D := 1) (fun _ : Fin 1 => (0 : ℝ)) shrunk.costs (fun _ _ => 0) (fun _ => 0) 0
    (fun r hr => by simp [shrunk] at hr; subst hr; exact ⟨idx_repeated _, idx_repeated _, rfl⟩)
  unfold linearizeSized
  rw [if_neg (by simp [construct])]
  rw [hc]
  exact ⟨_, rfl⟩

example : ∃ t, evalErrorsSized (construct small) longer (fun _ : Fin 1 => (0 : ℝ)) = .error (.ub t) := by
  refine ((C85_evaluate _ _ _).2 ⟨repeated 3, by simp [longer], by simp [construct, small, repeated]⟩).2 ?_ ?_
  · intro r hr; simp [longer] at hr; rcases hr with rfl | rfl <;> exact idx_repeated _
  · intro r hr; simp [longer] at hr; rcases hr with rfl | rfl <;> rfl

end MiniOpt.Props
