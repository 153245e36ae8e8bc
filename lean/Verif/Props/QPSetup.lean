import Verif.Model.RawQP
import Verif.Model.FlatBlocks
import Verif.Lemmas.Demo

/-!
# C05, C06, C21: what the QP solver accepts, and how its state vector is laid out (any arithmetic)
-/

set_option autoImplicit false

namespace MiniOpt.Props

open MiniOpt MiniOpt.Spec MiniOpt.IP

variable {α : Type} [Scalar α]

/-- What the documentation of `Setup` requires of a problem. -/
def SetupAccepts (p : RawQP α) : Prop :=
  p.G.rows = p.G.cols ∧ p.G.rows = p.c.rows ∧ p.Aeq.rows = p.beq.rows ∧
    (p.Aeq.rows ≠ 0 → p.Aeq.cols ≠ 0 ∧ p.Aeq.cols = p.G.rows) ∧
    ∀ c ∈ p.constraints, c.var < (p.G.rows : Int)

/-- The conditions `Setup` documents, in the order in which it checks them, each with the message of the assertion
that reports it. -/
def setupConditions (p : RawQP α) : List (Prop × String) :=
  [(p.G.rows = p.G.cols, "G must be square"),
   (p.G.rows = p.c.rows, "Dims of G and c must match"),
   (p.Aeq.rows = p.beq.rows, "Rows of A_e and b_e must match"),
   (p.Aeq.rows ≠ 0 → p.Aeq.cols ≠ 0 → p.Aeq.cols = p.G.rows, "A_eq.cols() == G.rows()"),
   (p.Aeq.cols = 0 → p.Aeq.rows = 0, "A_eq.rows() == 0"),
   (∀ c ∈ p.constraints, c.var < (p.G.rows : Int), "Constraint index is out of bounds")]

theorem checkIndices_ok (n : Nat) (cs : List (Ineq α)) :
    (checkIndices n cs = .ok () ∧ ∀ c ∈ cs, c.var < (n : Int)) ∨
      (checkIndices n cs = .error (.assertion "Constraint index is out of bounds") ∧ ¬ ∀ c ∈ cs, c.var < (n : Int)) := by
  induction cs with
  | nil => left; exact ⟨rfl, by simp⟩
  | cons c cs ih =>
    unfold checkIndices
    by_cases h : c.var < (n : Int)
    · simp only [h, not_true_eq_false, if_false, List.forall_mem_cons, true_and]; exact ih
    · right
      simp only [h, not_false_eq_true, if_true, List.forall_mem_cons, false_and, not_false_eq_true, and_true]

theorem size_pos (m : RawMat α) : 0 < m.size ↔ m.rows ≠ 0 ∧ m.cols ≠ 0 := by
  unfold RawMat.size
  rw [Nat.pos_iff_ne_zero, Ne, Nat.mul_eq_zero, not_or]

/-- **C05** (decision). `Setup` throws an assertion exactly when the pointer is null, a dimension
disagrees or an index is ≥ N; otherwise it accepts the problem unchanged. -/
theorem C05_setup_exact (p : Option (RawQP α)) :
    ((∃ tag, setup p = .error (.assertion tag)) ↔ ∀ q, p = some q → ¬ SetupAccepts q) ∧
    (∀ q, p = some q → SetupAccepts q → setup p = .ok q) ∧
    (∀ tag, setup p ≠ .error (.ub tag)) := by
  cases p with
  | none => simp [setup]
  | some q =>
    have main : (SetupAccepts q ∧ setup (some q) = .ok q) ∨
        (¬ SetupAccepts q ∧ ∃ tag, setup (some q) = .error (.assertion tag)) := by
      unfold setup SetupAccepts
      simp only [size_pos]
      split_ifs with h1 h2 h3 h4 h5 h6
      · right; exact ⟨fun h => h1 h.1, _, rfl⟩
      · right; exact ⟨fun h => h2 h.2.1, _, rfl⟩
      · right; exact ⟨fun h => h3 h.2.2.1, _, rfl⟩
      · right; exact ⟨fun h => h4.2 (h.2.2.2.1 h4.1.1).2, _, rfl⟩
      · right; exact ⟨fun h => h5.1 ⟨h5.2, (h.2.2.2.1 h5.2).1⟩, _, rfl⟩
      · right; exact ⟨fun h => h6.1 ⟨by omega, (h.2.2.2.1 (by omega)).1⟩, _, rfl⟩
      · rw [not_not] at h1 h2 h3
        have h7 : q.Aeq.rows ≠ 0 → q.Aeq.cols ≠ 0 ∧ q.Aeq.cols = q.G.rows := by
          intro hr
          have h8 : q.Aeq.cols ≠ 0 := fun h8 => h5 ⟨fun h => h.2 h8, hr⟩
          exact ⟨h8, by by_contra h9; exact h4 ⟨⟨hr, h8⟩, h9⟩⟩
        rcases checkIndices_ok q.G.rows q.constraints with ⟨hc, hf⟩ | ⟨hc, hf⟩
        · left; rw [hc]; exact ⟨⟨h1, h2, h3, h7, hf⟩, rfl⟩
        · right; rw [hc]; exact ⟨fun h => hf h.2.2.2.2, _, rfl⟩
    rcases main with ⟨h, hs⟩ | ⟨h, tag, hs⟩
    · rw [hs]; exact ⟨⟨by simp, fun hq => absurd h (hq q rfl)⟩, by rintro _ ⟨⟩ _; rfl, by simp⟩
    · rw [hs]; refine ⟨⟨fun _ => ?_, fun _ => ⟨tag, rfl⟩⟩, ?_, by simp⟩
      · rintro _ ⟨⟩; exact h
      · rintro _ ⟨⟩ h'; exact absurd h' h

/-- **C05** (message). A null pointer is reported as such; otherwise the message is that of the first documented
condition the problem does not meet. -/
theorem C05_which_assertion (p : Option (RawQP α)) :
    (p = none → setup p = .error (.assertion "Must pass a non-null problem")) ∧
    ∀ q, p = some q → ∀ (i : Nat) (cond : Prop) (tag : String), (setupConditions q)[i]? = some (cond, tag) → ¬ cond →
      (∀ (j : Nat) (cond' : Prop) (tag' : String), j < i → (setupConditions q)[j]? = some (cond', tag') → cond') →
      setup p = .error (.assertion tag) := by
  refine ⟨by rintro rfl; rfl, ?_⟩
  rintro q rfl i cond tag hi hc hb
  have hlt : i < 6 := by
    have := (List.getElem?_eq_some_iff.1 hi).1
    exact this
  unfold setup
  simp only [size_pos]
  have b0 : 0 < i → q.G.rows = q.G.cols := fun h => hb 0 _ _ h rfl
  have b1 : 1 < i → q.G.rows = q.c.rows := fun h => hb 1 _ _ h rfl
  have b2 : 2 < i → q.Aeq.rows = q.beq.rows := fun h => hb 2 _ _ h rfl
  have b3 : 3 < i → (q.Aeq.rows ≠ 0 → q.Aeq.cols ≠ 0 → q.Aeq.cols = q.G.rows) := fun h => hb 3 _ _ h rfl
  have b4 : 4 < i → (q.Aeq.cols = 0 → q.Aeq.rows = 0) := fun h => hb 4 _ _ h rfl
  obtain rfl | rfl | rfl | rfl | rfl | rfl : i = 0 ∨ i = 1 ∨ i = 2 ∨ i = 3 ∨ i = 4 ∨ i = 5 := by omega
  · cases hi
    rw [if_pos hc]
  · cases hi
    rw [if_neg (not_not.2 (b0 (by omega))), if_pos hc]
  · cases hi
    rw [if_neg (not_not.2 (b0 (by omega))), if_neg (not_not.2 (b1 (by omega))), if_pos hc]
  · cases hi
    push Not at hc
    rw [if_neg (not_not.2 (b0 (by omega))), if_neg (not_not.2 (b1 (by omega))), if_neg (not_not.2 (b2 (by omega))),
      if_pos ⟨⟨hc.1, hc.2.1⟩, hc.2.2⟩]
  · cases hi
    push Not at hc
    rw [if_neg (not_not.2 (b0 (by omega))), if_neg (not_not.2 (b1 (by omega))), if_neg (not_not.2 (b2 (by omega))),
      if_neg (fun h => h.1.2 hc.1), if_pos ⟨fun h => h.2 hc.1, hc.2⟩]
  · cases hi
    have h2 := b2 (by omega)
    have h4 := b4 (by omega)
    rw [if_neg (not_not.2 (b0 (by omega))), if_neg (not_not.2 (b1 (by omega))), if_neg (not_not.2 h2),
      if_neg (fun h => h.2 (b3 (by omega) h.1.1 h.1.2)), if_neg (fun h => h.1 ⟨h.2, fun hz => h.2 (h4 hz)⟩),
      if_neg (fun h => h.1 ⟨fun hz => h.2 (by omega), fun hz => h.2 (by have := h4 hz; omega)⟩)]
    rcases checkIndices_ok q.G.rows q.constraints with ⟨-, h⟩ | ⟨h, -⟩
    · exact absurd h hc
    · rw [h]

/-- Non-vacuity: a matrix `A_eq` with a row and no columns. -/
example : setup (some (⟨⟨2, 2, fun _ _ => 1⟩, ⟨2, fun _ => 0⟩, ⟨1, 0, fun _ _ => 1⟩, ⟨1, fun _ => 0⟩, []⟩ : RawQP ℝ))
    = .error (.assertion "A_eq.rows() == 0") := by
  refine (C05_which_assertion _).2 _ rfl 4 _ _ rfl (by simp) ?_
  intro j cond' tag' hj h
  obtain rfl | rfl | rfl | rfl : j = 0 ∨ j = 1 ∨ j = 2 ∨ j = 3 := by omega
  all_goals cases h; simp

/-- **C05** (memory safety after acceptance, the true part). A problem accepted by `Setup` is accessed
in range exactly when no constraint index is negative. -/
theorem C05_accepted_in_range (q : RawQP α) (h : setup (some q) = .ok q) :
    q.InRange ↔ ∀ c ∈ q.constraints, 0 ≤ c.var := by
  have hacc : SetupAccepts q := by
    by_contra hn
    obtain ⟨tag, ht⟩ := (C05_setup_exact (some q)).1.mpr (by rintro _ ⟨⟩; exact hn)
    rw [ht] at h; cases h
  obtain ⟨h1, h2, h3, h4, h6⟩ := hacc
  constructor
  · intro hr c hc; exact (hr.2.2.2.2 c hc).1
  · intro hn
    exact ⟨h1.symm, h2.symm, fun hk => (h4 (by omega)).2, h3.symm, fun c hc => ⟨hn c hc, h6 c hc⟩⟩

/-- Non-vacuity: a problem with equality and inequality constraints is accepted and in range. -/
example : ∃ q : RawQP ℝ, setup (some q) = .ok q ∧ q.InRange ∧ 0 < q.Aeq.rows ∧ q.constraints ≠ [] := by
  let q : RawQP ℝ := ⟨⟨2, 2, fun _ _ => 1⟩, ⟨2, fun _ => 0⟩, ⟨1, 2, fun _ _ => 1⟩, ⟨1, fun _ => 0⟩,
    [⟨1, 1, 0⟩]⟩
  have hq : setup (some q) = .ok q := rfl
  exact ⟨q, hq, (C05_accepted_in_range q hq).mpr (by simp [q]), by simp [q], by simp [q]⟩

/-- The parameter ranges `Solve` documents (`/repo/include/mini_opt/qp.hpp:133-165`). A NaN satisfies
none of the comparisons. -/
def ParamsValid (prm : QPParams α) : Prop :=
  (0 : α) < prm.initialMu ∧ (0 : α) < prm.sigma ∧ prm.sigma ≤ (1 : α) ∧
    (0 : α) < prm.terminationKktTol ∧ 0 < prm.maxIterations

/-- The messages of the five parameter assertions. -/
def paramTags : List String :=
  ["initial_mu > 0", "sigma > 0", "sigma <= 1", "termination_kkt_tol > 0", "max_iterations > 0"]

theorem checkParams_error {prm : QPParams α} {e : Fault} (h : checkParams prm = .error e) :
    ∃ tag ∈ paramTags, e = .assertion tag := by
  unfold checkParams at h
  split_ifs at h <;> cases h <;> exact ⟨_, by simp [paramTags], rfl⟩

theorem clampAll_fault {N M K : Nat} (p : QP N M K α) : ∀ (l : List (Fin M)) (x : Fin N → α) e,
    clampAll p l x = .error e → e.1 = .assertion "`a` cannot be zero" := by
  intro l
  induction l with
  | nil => intro x e h; cases h
  | cons i l ih =>
    intro x e h
    rw [clampAll] at h
    split at h
    · rename_i e' he
      cases h
      unfold Ineq.clampX at he
      split_ifs at he
      cases he; rfl
    · exact ih _ _ h

theorem finishGuess_fault {N M K : Nat} {p : QP N M K α} {st : IPState N M K α} {e}
    (h : finishGuess p st = .error e) : e.1 = .assertion "`a` cannot be zero" := by
  unfold finishGuess at h
  split at h
  · rename_i e' x he
    cases h
    exact clampAll_fault p _ _ _ he
  · cases h

theorem computeLDLT_fault {N M K : Nat} {E : Eigen N K α} {p : QP N M K α} {b : Bool}
    {st : IPState N M K α} {e} (h : computeLDLT E p b st = .error e) :
    e.1 = .failedFactorization ∨ e.1 = .assertion "Some slack variables s <= 0" := by
  unfold computeLDLT at h
  split_ifs at h
  · dsimp only at h
    split at h
    · cases h; exact Or.inl rfl
    · cases h
  · cases h; exact Or.inr rfl

/-- Every fault of `Solve` once the parameters are valid. -/
theorem solve_faults {N M K : Nat} {E : Eigen N K α} {p : QP N M K α} {prm : QPParams α}
    {st : IPState N M K α} {e} (hp : checkParams prm = .ok ()) (h : solve E p prm st = .error e) :
    e.1 = .failedFactorization ∨ e.1 = .assertion "Some slack variables s <= 0" ∨
      e.1 = .assertion "`a` cannot be zero" := by
  unfold solve at h
  rw [hp] at h
  dsimp only at h
  split at h
  · rename_i e' he
    cases h
    unfold initialGuess at he
    split at he
    · cases he
    · right; right; exact finishGuess_fault he
    · split at he
      · rename_i e'' he'
        cases he
        rcases computeLDLT_fault he' with h | h
        · exact Or.inl h
        · exact Or.inr (Or.inl h)
      · right; right; exact finishGuess_fault he
  · rename_i st0 h0
    have := solveLoop_rule E p prm (fun _ _ _ _ => True) (fun _ => True)
      (fun e => e.1 = .failedFactorization ∨ e.1 = .assertion "Some slack variables s <= 0")
      (fun _ _ _ _ _ _ _ _ _ => trivial) (fun _ _ _ _ _ _ _ _ _ => trivial) (fun _ _ _ _ => trivial)
      (by
        intro n st mu log e _ he
        unfold iterate at he
        split at he
        · rename_i e' he'
          cases he
          exact computeLDLT_fault he'
        · cases he) prm.maxIterations.toNat (evaluateKKT p true st0)
      (initialMu prm (evaluateKKT p true st0)) [] trivial
    rw [h] at this
    rcases this with h | h
    · exact Or.inl h
    · exact Or.inr (Or.inl h)

/-- **C05** (memory safety of `Solve`). `Solve` on an accepted problem has undefined behaviour exactly
when a constraint index is negative. -/
theorem C05_solve_ub_iff (q : RawQP α) (h : setup (some q) = .ok q)
    (E : (N K : Nat) → Eigen N K α) (prm : QPParams α) (hp : checkParams prm = .ok ())
    (junk : (N M K : Nat) → IPState N M K α) :
    (∃ tag, RawQP.setupAndSolve (some q) E prm junk = .error (.ub tag)) ↔
      ∃ c ∈ q.constraints, c.var < 0 := by
  have hin := C05_accepted_in_range q h
  unfold RawQP.setupAndSolve
  rw [h, hp]
  dsimp only
  by_cases hr : q.InRange
  · rw [dif_pos hr]
    have hno : ¬ ∃ c ∈ q.constraints, c.var < 0 := by
      rintro ⟨c, hc, hlt⟩; have := hin.mp hr c hc; omega
    simp only [hno, iff_false]
    rintro ⟨tag, hs⟩
    split at hs
    · rename_i e he
      simp only [Except.error.injEq] at hs
      have := solve_faults hp he
      rw [hs] at this
      simp at this
    · cases hs
  · rw [dif_neg hr]
    refine ⟨fun _ => ?_, fun _ => ⟨_, rfl⟩⟩
    by_contra hn
    apply hr
    rw [hin]
    intro c hc
    by_contra hlt
    exact hn ⟨c, hc, by omega⟩

/-- **C05, refuted part**: `Setup` accepts a problem with a negative constraint index, and `Solve` then
accesses memory out of range. -/
theorem C05_negative_index_accepted (E : (N K : Nat) → Eigen N K ℝ)
    (junk : (N M K : Nat) → IPState N M K ℝ) :
    ∃ q : RawQP ℝ, setup (some q) = .ok q ∧
      ∃ tag, RawQP.setupAndSolve (some q) E QPParams.default junk = .error (.ub tag) := by
  let q : RawQP ℝ := ⟨⟨1, 1, fun _ _ => 1⟩, ⟨1, fun _ => 0⟩, ⟨0, 0, fun _ _ => 0⟩, ⟨0, fun _ => 0⟩,
    [⟨-1, 1, 0⟩]⟩
  have hq : setup (some q) = .ok q := rfl
  refine ⟨q, hq, ?_⟩
  rw [C05_solve_ub_iff q hq E _ default_valid junk]
  exact ⟨⟨-1, 1, 0⟩, by simp [q], by norm_num⟩

/-- **C06** (any arithmetic, so NaN included). Invalid parameters make `Solve` throw a parameter
assertion and leave the whole solver object untouched; valid parameters never produce such an
assertion. -/
theorem C06_params_validated {N M K : Nat} (E : Eigen N K α) (p : QP N M K α) (prm : QPParams α)
    (st : IPState N M K α) :
    (¬ ParamsValid prm → ∃ tag ∈ paramTags, solve E p prm st = .error (.assertion tag, st)) ∧
    (ParamsValid prm → ∀ tag ∈ paramTags, ∀ st', solve E p prm st ≠ .error (.assertion tag, st')) := by
  constructor
  · intro h
    cases hc : checkParams prm with
    | ok u => exact absurd ((checkParams_ok_iff prm).mp hc) h
    | error e =>
      obtain ⟨tag, ht, rfl⟩ := checkParams_error hc
      exact ⟨tag, ht, by simp [solve, hc]⟩
  · intro h tag ht st' hs
    have hc := (checkParams_ok_iff prm).mpr h
    rcases solve_faults hc hs with h | h | h
    · cases h
    · simp only [Fault.assertion.injEq] at h; subst h; revert ht; simp [paramTags]
    · simp only [Fault.assertion.injEq] at h; subst h; revert ht; simp [paramTags]

/-- Non-vacuity of both halves. -/
example : ParamsValid (QPParams.default : QPParams ℝ) ∧
    ¬ ParamsValid ({ QPParams.default with sigma := 2 } : QPParams ℝ) := by
  constructor
  · exact (checkParams_ok_iff _).mp default_valid
  · intro h; have := h.2.2.1; norm_num at this

/-! ## C21 -/

/-- **C21** (layout). For a vector of the size `Setup` allocates, the four views are in range and, read
in the order x, s, y, z and concatenated, give back the whole vector. -/
theorem C21_blocks_cover {β : Type} (d : Dims) (vec : List β) (h : vec.length = d.total) :
    ∃ x s y z, getBlock d .x vec = .ok x ∧ getBlock d .s vec = .ok s ∧ getBlock d .y vec = .ok y ∧
      getBlock d .z vec = .ok z ∧ x.length = d.N ∧ s.length = d.M ∧ y.length = d.K ∧ z.length = d.M ∧
      x ++ s ++ y ++ z = vec := by
  unfold Dims.total at h
  refine ⟨vec.take d.N, (vec.drop d.N).take d.M, (vec.drop (d.N + d.M)).take d.K,
    (vec.drop (vec.length - d.M)).take d.M, ?_, ?_, ?_, ?_, ?_, ?_, ?_, ?_, ?_⟩
  · simp [getBlock, Block.seg, xSeg, readSeg]; omega
  · simp [getBlock, Block.seg, sSeg, readSeg]; omega
  · simp [getBlock, Block.seg, ySeg, readSeg]; omega
  · simp [getBlock, Block.seg, zSeg, readSeg, show d.M ≤ vec.length by omega]
  · simp; omega
  · simp; omega
  · simp; omega
  · simp; omega
  · have hz : vec.length - d.M = d.N + d.M + d.K := by omega
    rw [hz]
    have e1 : (vec.drop (d.N + d.M + d.K)).take d.M = vec.drop (d.N + d.M + d.K) := by
      apply List.take_of_length_le; simp; omega
    have e2 : vec.drop (d.N + d.M + d.K) = (vec.drop (d.N + d.M)).drop d.K := by
      rw [List.drop_drop]
    have e3 : vec.drop (d.N + d.M) = (vec.drop d.N).drop d.M := by rw [List.drop_drop]
    rw [e1, e2, List.append_assoc, List.take_append_drop, e3, List.append_assoc,
      List.take_append_drop, List.take_append_drop]

/-- Reading the blocks of a laid-out state gives its components. -/
theorem C21_flatten {N M K : Nat} {β : Type} (b : Blocks N M K β) :
    getBlock ⟨N, M, K⟩ .x b.flatten = .ok (List.ofFn b.x) ∧
    getBlock ⟨N, M, K⟩ .s b.flatten = .ok (List.ofFn b.s) ∧
    getBlock ⟨N, M, K⟩ .y b.flatten = .ok (List.ofFn b.y) ∧
    getBlock ⟨N, M, K⟩ .z b.flatten = .ok (List.ofFn b.z) := by
  have hl : b.flatten.length = (⟨N, M, K⟩ : Dims).total := by
    simp [Blocks.flatten, Dims.total]; omega
  obtain ⟨x, s, y, z, hx, hs, hy, hz, lx, ls, ly, lz, h⟩ := C21_blocks_cover ⟨N, M, K⟩ b.flatten hl
  rw [hx, hs, hy, hz]
  unfold Blocks.flatten at h
  simp only [List.append_assoc] at h
  obtain ⟨e1, h1⟩ := List.append_inj h (by simp [lx])
  obtain ⟨e2, h2⟩ := List.append_inj h1 (by simp [ls])
  obtain ⟨e3, e4⟩ := List.append_inj h2 (by simp [ly])
  rw [e1, e2, e3, e4]
  exact ⟨rfl, rfl, rfl, rfl⟩

/-- **C21** (independence). Writing one block of a vector of the allocated size succeeds, keeps the size,
makes that block read back the written values and leaves the other three unchanged. -/
theorem C21_write_independent {β : Type} (d : Dims) (vec vals : List β) (w : Block)
    (h : vec.length = d.total)
    (hv : vals.length = match w with | .x => d.N | .s => d.M | .y => d.K | .z => d.M) :
    ∃ vec', setBlock d w vec vals = .ok vec' ∧ vec'.length = d.total ∧ getBlock d w vec' = .ok vals ∧
      ∀ b, b ≠ w → getBlock d b vec' = getBlock d b vec := by
  obtain ⟨N, M, K⟩ := d
  obtain ⟨x, s, y, z, hx, hs, hy, hz, lx, ls, ly, lz, hc⟩ := C21_blocks_cover ⟨N, M, K⟩ vec h
  simp only at lx ls ly lz hv
  have gen : ∀ x' s' y' z' : List β, x'.length = N → s'.length = M → y'.length = K → z'.length = M →
      getBlock ⟨N, M, K⟩ .x (x' ++ s' ++ y' ++ z') = .ok x' ∧
      getBlock ⟨N, M, K⟩ .s (x' ++ s' ++ y' ++ z') = .ok s' ∧
      getBlock ⟨N, M, K⟩ .y (x' ++ s' ++ y' ++ z') = .ok y' ∧
      getBlock ⟨N, M, K⟩ .z (x' ++ s' ++ y' ++ z') = .ok z' := by
    intro x' s' y' z' l1 l2 l3 l4
    subst l1 l3
    obtain ⟨x2, s2, y2, z2, hx2, hs2, hy2, hz2, lx2, ls2, ly2, lz2, hc2⟩ :=
      C21_blocks_cover ⟨x'.length, M, y'.length⟩ (x' ++ s' ++ y' ++ z')
        (by simp [Dims.total]; omega)
    rw [hx2, hs2, hy2, hz2]
    simp only [List.append_assoc] at hc2
    obtain ⟨e1, h1⟩ := List.append_inj hc2 lx2
    obtain ⟨e2, h2⟩ := List.append_inj h1 (by rw [ls2]; exact l2.symm)
    obtain ⟨e3, e4⟩ := List.append_inj h2 ly2
    rw [e1, e2, e3, e4]
    exact ⟨rfl, rfl, rfl, rfl⟩
  have hlen : ∀ (g : Seg) (x' s' : List β) (mid : List β), vec = x' ++ mid ++ s' → x'.length = g.start →
      mid.length = g.len → vals.length = g.len →
      writeSeg (some g) vec vals = .ok (x' ++ vals ++ s') := by
    intro g x' s' mid hvec h1 h2 h3
    unfold writeSeg
    have hle : g.start + g.len ≤ vec.length ∧ vals.length = g.len := by
      refine ⟨?_, h3⟩; rw [hvec]; simp; omega
    simp only [hle, and_self, if_true]
    congr 2
    · congr 1
      rw [hvec, List.append_assoc, ← h1, List.take_left]
    · rw [hvec, ← h1, ← h2, ← List.length_append, List.drop_left]
  have hg := gen x s y z lx ls ly lz
  rw [hc] at hg
  cases w with
  | x =>
    simp only at hv
    refine ⟨vals ++ s ++ y ++ z, ?_, ?_, ?_, ?_⟩
    · have := hlen ⟨0, N⟩ [] (s ++ y ++ z) x (by rw [← hc]; simp) rfl lx hv
      simpa [setBlock, Block.seg, xSeg] using this
    · simp [Dims.total]; omega
    · exact (gen vals s y z hv ls ly lz).1
    · intro b hb
      have h' := gen vals s y z hv ls ly lz
      cases b
      · exact absurd rfl hb
      · rw [h'.2.1, hg.2.1]
      · rw [h'.2.2.1, hg.2.2.1]
      · rw [h'.2.2.2, hg.2.2.2]
  | s =>
    simp only at hv
    refine ⟨x ++ vals ++ y ++ z, ?_, ?_, ?_, ?_⟩
    · have := hlen ⟨N, M⟩ x (y ++ z) s (by rw [← hc]; simp) lx ls hv
      simpa [setBlock, Block.seg, sSeg] using this
    · simp [Dims.total]; omega
    · exact (gen x vals y z lx hv ly lz).2.1
    · intro b hb
      have h' := gen x vals y z lx hv ly lz
      cases b
      · rw [h'.1, hg.1]
      · exact absurd rfl hb
      · rw [h'.2.2.1, hg.2.2.1]
      · rw [h'.2.2.2, hg.2.2.2]
  | y =>
    simp only at hv
    refine ⟨x ++ s ++ vals ++ z, ?_, ?_, ?_, ?_⟩
    · have := hlen ⟨N + M, K⟩ (x ++ s) z y (by rw [← hc]) (by simp; omega) ly hv
      simpa [setBlock, Block.seg, ySeg] using this
    · simp [Dims.total]; omega
    · exact (gen x s vals z lx ls hv lz).2.2.1
    · intro b hb
      have h' := gen x s vals z lx ls hv lz
      cases b
      · rw [h'.1, hg.1]
      · rw [h'.2.1, hg.2.1]
      · exact absurd rfl hb
      · rw [h'.2.2.2, hg.2.2.2]
  | z =>
    simp only at hv
    refine ⟨x ++ s ++ y ++ vals, ?_, ?_, ?_, ?_⟩
    · have hM : M ≤ vec.length := by rw [h]; simp [Dims.total]; omega
      have := hlen ⟨vec.length - M, M⟩ (x ++ s ++ y) [] z (by rw [← hc]; simp)
        (by rw [h]; simp [Dims.total]; omega) lz hv
      simpa [setBlock, Block.seg, zSeg, hM] using this
    · simp [Dims.total]; omega
    · exact (gen x s y vals lx ls ly hv).2.2.2
    · intro b hb
      have h' := gen x s y vals lx ls ly hv
      cases b
      · rw [h'.1, hg.1]
      · rw [h'.2.1, hg.2.1]
      · rw [h'.2.2.1, hg.2.2.1]
      · exact absurd rfl hb

/-- **C21, refuted without the size condition**: after `SetVariables` with a shorter vector, the `y` and
`z` views overlap: writing `z` changes `y`. -/
theorem C21_setVariables_unchecked :
    ∃ (d : Dims) (old v vals v' : List ℕ), old.length = d.total ∧ vals.length = d.M ∧
      setBlock d .z (setVariables d old v) vals = .ok v' ∧
      getBlock d .y (setVariables d old v) ≠ getBlock d .y v' := by
  refine ⟨⟨1, 1, 1⟩, [0, 0, 0, 0], [1, 2, 3], [9], [1, 2, 9], rfl, rfl, rfl, ?_⟩
  simp [setVariables, getBlock, Block.seg, ySeg, readSeg]

end MiniOpt.Props
