# Formal model of gareth-cross/mini_opt in Lean 4

## 1. Approach

* `lean/Verif/Model/*` models the C++ function by function. Every definition cites file:lines in
  `/repo`. The numerical type is a parameter: `class Scalar α` holds only *operations*
  (`+ - * /`, comparisons as in C++, `std::isfinite`, `fabs`, `sqrt`, `pow(.,3)`, literals, and an
  unspecified-order reduction `sum` used for Eigen `.sum()/.dot()/.squaredNorm()`), no laws.
  Three kinds of theorem result:
  1. **any arithmetic** (`[Scalar α]`): control-flow claims, valid for doubles with NaN/Inf/rounding;
  2. **IEEE-like** (`F64`, a definition of binary64 with round-to-nearest-even, signed zeros, Inf,
     NaN, and where handy a law class that both `ℝ` and `F64` satisfy);
  3. **exact** (`ℝ`): algebra (Newton system, contraction, optimality, ...). Rounding is then *not*
     modelled, and the claim says so.
* C++ exceptions and undefined behaviour are distinct outcomes: `Except Fault`, with
  `Fault.assertion`, `Fault.failedFactorization`, `Fault.ub`, `Fault.user` (an exception of a user-supplied callable).
* Eigen is not in the repository. Its factorisations enter as parameters with a stated contract
  (section 3); every contract is shown satisfiable by a concrete instance.
* `lean/Verif/Spec/*` are small specifications that do not mention the model.
* `lean/Verif/Props/*` contain only property theorems (and non-vacuity examples beside them).

## 2. Properties: what is modelled and how it is proved

(see `properties.jsonl` for the English statements and `MANIFEST.json` for the theorem names)

| id | plan |
|----|------|
| C01-C04 | constraint functions over `Scalar`; exact order algebra over ℝ; C03 also over `F64` (sign of a rounded difference); C01 refuted in `F64` for a=49,b=-1; C04 induction over the constraint list |
| C05,C06 | decision logic of Setup/CheckParams over raw dims, `Int` indices and any scalar; negative-index acceptance is a witness theorem |
| C07,C08 | invariant: positivity of s,z is preserved by `iterate` for *any* direction; induction over the loop |
| C09,C24,C25 | block elimination against the full system (spec written with Mathlib matrices) under the LDLT contract |
| C10 | algebra of one iteration, then induction over the loop |
| C11-C14,C16,C17,C20 | loop invariants over the log; C12 by convexity |
| C15 | one Newton step on an affine system |
| C18 | identity + witness against the code comment |
| C19 | model keeps all scratch buffers explicitly; equality of runs from different buffers |
| C21 | flat-vector (List) model of the block accessors |
| C22,C23 | algebra + invariants |
| C26-C28 | null-space method under QR / triangular solve / LLT contracts; dimension mismatch is `Fault.ub` |
| C29-C33 | residual loops as folds; finite-sum algebra; index checks as decision logic |
| C34 | finite-sum algebra on the assembled QP |
| C35 | Mathlib `HasDerivAt` along the ray |
| C36-C40,C43,C44,C46-C48,C51 | the outer loop is generic in the QP step, residual evaluation and callback; invariants by induction over iterations, most for any arithmetic |
| C41,C42 | real algebra of the interpolation formulas |
| C45 | null-space optimality + inequality (18.36) |
| C49 | C23 lifted through the line search and outer loop |
| C50 | algebra for affine residuals |
| C52,C53 | decision logic, witnesses |
| C54-C56 | folds, finite tables, string model of the formatter |
| C57-C59 | JSON value model of nlohmann (`json` as an inductive type), encoder/decoder round trip |
| C60-C62 | collector state machine, interleavings of lock-protected steps; JSON grammar for the dump |
| C63 | comparisons in `F64` |
| C64-C66 | decision logic and JSON decoding, with witnesses |
| C67 | normal equations of the damped model, from C15's one-iteration result |
| C68,C69 | KKT residual identities of the linearised QP, Cauchy-Schwarz for the Gauss-Newton form, the log view of the outer loop |
| C70,C71 | `Model/TransformChains.lean`; unit quaternions embedded in Mathlib's `ℍ[ℝ]` (`toH`), rotation specified as `q v q*`, chains by induction on the list of links |
| C72,C73 | derivatives as `HasFDerivAt`, angular velocity specified as the `w` with `dq = q·w/2` (right tangent space); product rule along the chain; C73 substitutes the parameters and uses the contract on `SO3FromEulerAngles` |
| C74,C75 | any arithmetic: closed form of `Update` over a history of calls; the parameter index of an active entry counted directly |
| C76-C78 | potential argument on the log: merit/penalty is non-increasing when the penalty rises and contracts at accepted steps; damping grows by 10 per failure; counting windows by induction on the log length. In binary64 (`Props/DoublesTermination.lean`) with explicit rounding bounds: each failure multiplies the damping by at least 8, each accepted step loses at most `2^-51` of the contraction |
| C79 | an interpreter of format patterns (specification) and the library's format strings; the modelled text equals the interpreted patterns for every record; line counts by induction over the lists |
| C80 | the documented conditions as an ordered list with messages (specification); the checks are equal to 'report the first that fails'; for residuals the first bad index decides |
| C81 | residuals, retraction and callback may throw (`Fault.user`) at any call; the object left behind is part of the error outcome. Simulation between the loop with and without callback (`loop_strip`) shows that the variables left by an exception are those of a run with a smaller iteration limit; the cost and bound parts then follow from C37 and C49. |
| C82 | relation `Relabelled` between QPs and `Both` between outcomes, preserved by every function of the interior point model (`solve_rel`); the clamp of the initial guess is order independent for consistent bounds (C04). For general renumberings the factorisation is replaced by the exact inverse (`solve_exact`), which commutes with permutations. |
| C83 | a simulation (`LRel`) between the loop on the problem and on the reordered problem: `linearize` and `evalErrors` agree by C33, the QP step by C82, the rest by congruence (`body_reordered`, `loop_reordered`). |
| C84 | `C38_direction` gives the call of the QP solver with the parameters of `qpParams`; C13, C16 (schedule), C22 (start) and C10 (residuals) are instantiated with them. |
| C85 | `Verif/Model/Sizes.lean`: constructor sizes separate from the problem; linearisation and evaluation on an object of given sizes. Proved by induction over the residual lists: equality with the fixed-problem model when the sizes suffice (`C85_enough_rows`, `C85_evaluate`, `C85_replaced`), assertion otherwise (`C85_too_many_rows`, `C85_dimension_changed`), zero rows and their consequences through C24 and C27 (`C85_too_few_rows`). |
| C86 | second model of the nonlinear solver (`Model/Stateful.lean`) in which every user call gets and returns a state of the world; simulation by induction on the loops: it gives the result of the first model and changes the world by a list of calls read off the log |
| C87 | the model of C86 (`Model/Stateful.lean`) with user code that answers anything; a grammar of logs over the logged fields (`Spec/LogSpec.lean`); induction over the line search and the loop |
| C88 | real-number model; specification of a basin over residual values and Jacobians (`Spec/BasinSpec.lean`); the QP solver's step is the Gauss-Newton step (C22/C42), an Euclidean-space argument for one step, the Armijo test at step 1, induction over the iterations. Example: Rosenbrock's function, default parameters, every start within 0.007 of the minimum: at most three iterations |
| C89 | object model with pointer, stored sizes and buffers, and the user's memory (`Model/Lifecycle.lean`); histories are lists of calls; invariant by induction over the history, and the reuse simulation of C19 |
| C90 | certificates as separate specification (`Spec/Certificates.lean`) with the proofs that they certify; C11 and C16 for the logged residuals; the linearised bounds are the shifted bounds |
| C91 | the legal-log grammar of C87 and the linearisation facts of C34 for the first iteration; C37 for the second part; a run as witness |
| C92 | `Model/ScopedTrace.lean`: structured programs with scopes, throw, try/catch and destructors, run with a clock and the number of exceptions in flight. `Spec/TraceSpec.lean`: an inductive relation of what is recorded, without clock or counters; the two agree (`iff`), by induction on the program. Times: intervals of clock readings, by induction. |
| C93 | `Model/SolveTrace.lean`: the structured program of scopes a solve runs through, following the control flow of `lsLoop`, `body`, `loop`, `solve`. `Spec/SolveTraceSpec.lean`: the scopes read off the outputs. Induction over line search and iterations, through the relation of C92. |
| C94 | `Model/TestUtils.lean`: the generator with the random numbers as arguments, the matrix comparison. Induction over the rank updates; the objective of the generated problem as a sum of squares per coordinate. |
| C95 | `Props/QPDualStep.lean`: from the full Newton system (C09) of each logged iteration: exact recurrence of the Lagrangian gradient, full-step consequences, duality gap at zero residuals, complementarity recurrence; a concrete run where a zero dual residual becomes nonzero. |
| C96 | `Smooth`, `Curved`, `shortestStep`, `stepRatio` in `Spec/SmoothSpec.lean`. The step satisfies the damped normal equations (C67), so the quadratic upper bound turns into a parabola in the slope; Armijo refusals then bound the step length below, C42's lower bound on interpolated steps gives the polynomial strategy, C76's telescoped decrease and C77's failure count give the iteration bound. `C96_lipschitz` derives the hypothesis from true Jacobians and a Lipschitz gradient by the mean value theorem; `bowlEnv` (Jacobian singular at the solution) meets all hypotheses. |
| C97 | On the NLS model over ℝ: the step solves the damped normal equations (C67); contraction of the error and of the residual via the adjoint of the stacked Jacobian in `EuclideanSpace`; acceptance of the full step from C36/C40 facts; damping sequence by induction from C43. |
| C98 | `linear_step` combines C26 (null-space minimiser), C34 (model = cost for affine residuals) and C44 (penalty rule): the merit function along the step is the parabola φ₀ + αD + α²Q/2 with D ≤ -Q/2 - ρ·pen·v, so any α ≤ 0.9999 passes the Armijo test and the quadratic interpolation is exact (α₁ = -D/Q ≥ 1/2). Whole solve by induction (`run_between`). Witness of a refused full step computed on an exact run. |
| C99 | `Model/Assertions.lean`: `fmt` with `{}` fields, the two formatters, the macros as programs on a state (operands are expressions with side effects, in either order of evaluation); messages written out in `Spec/AssertText.lean`; injectivity by splitting at line breaks and uniqueness of decimal numerals. |
| C100 | grammar of `Spec/JsonText.lean`; `value_split` (mutual induction over the grammar): a value followed by a delimiter is determined; `Means` (`Spec/JsonMeaning.lean`) relates library values to JSON values up to member order; the readers are congruent for it (`Blind`), then C58. Existence of texts by a compact writer with escapes. |
| C101 | `Spec/CoordinateSpec.lean`: `SameProblem`. The linearised QPs are twins under `d = A e`, so their unique minimisers correspond (C26/C67), hence derivatives, penalty and line search coincide; induction over passes (`Linked`) and over the stop cases; QP_INDEFINITE transfers by C28. Corollaries for `B y + t` and renumbering build the rewritten residuals explicitly. Whether the second solve returns (`_returns`): a lock-step induction over the passes left; independence of the rows carries over to the other coordinates, so the null space solver returns too. |
| C102 | `Spec/RoundOffSpec.lean`: unit roundoff, `slop`, sums added in any order (`AddsUp`). `Lemmas/RoundOff.lean`: error calculus `Approx` on the IEEE model (add, mul, dot, norm, sqrt, div against a threshold). The residuals of `EvaluateKKTConditions` are within `slop` of the exact ones; a computed norm below `tol` bounds the exact norm; C12's duality gap bound applies to the exact problem. |
| C103 | Same calculus on the loops of `EvaluateNonlinearErrors`; combined with C39 (what is logged), C46 (exit) and C87 (acceptance test in doubles). |
| C104 | The entries `UpdateHessian` touches, over any scalar (`Lemmas/HessEntries.lean`), then the rounding calculus of C102 along the cost loop; the step by C38 and C102, with the difference between the computed and the exact model moved into an error term. |
| C105 | No contract on `Eigen` at all: the algebra of C09 redone with `w - H X w` carried along (`Props/Inexact.lean`), then the residual recursion of C10 with the error term, by induction over the trajectory; for M = 0 the reduced matrix is constant, so the recursion is a contraction by `eps`. |
| C106 | Exact slope, curvature and error bounds are written from the residuals' values and Jacobians alone (`Spec/RoundOffLinSpec.lean`). `near_dot` and `near_linearize` bound the logged slope; C104's bound on the model's gradient, tested with `dx` and with any `d`, and Cauchy-Schwarz for the positive semidefinite form of the exact model give the exit (`Props/DoubleFirstOrder.lean`). |
| C107 | One coordinate: the quotient `-0.995 v / d` is a normal number, so its relative error is one unit of roundoff, which 0.995 absorbs; below `2^-1060` the result is decided by the grid of subnormal numbers. Finiteness is carried backwards through the run from the final state, signs forwards from the initial guess; C102 then needs no sign hypotheses (`Props/DoubleSigns.lean`). |
| C108 | Exact bound values and error terms are written from the constraint, the variables and the step alone (`Spec/RoundOffLinSpec.lean`). C107 gives slacks that are not negative; the tested residual `fl(y - s)` has a relative error only, so no slack appears in the error; `C38_direction`, `C38_variables_move` and `C40_double` connect the QP with the move; induction over the iterations with finiteness carried backwards (`Props/DoubleBounds.lean`). |
| C109 | C64 and C65 redone on `Dbl`: the loop invariant says that a slack that is not positive was lost in the step just made (`SlackLost`, `Spec/DoubleThrowSpec.lean`), from the step length loop on arbitrary doubles; in the nonlinear solver the invariant keeps the penalty positive, the trial step sizes decreasing and the errors at accepted variables finite (`Props/DoubleExceptions.lean`). |
| C110 | The null-space step from a feasible point is the minimiser over the tangent plane (C26), which gives slope = minus curvature and an exact parabola for affine costs; the acceptance test then reads off (`Props/Maratos.lean`). `arcEnv K` is solved in closed form (`Props/MaratosExamples.lean`). |
| C111 | `Model/EigenLDLT.lean` transcribes Eigen's unblocked `LDLT`. Invariant: `H = L D Lᵀ` on the rows done, Schur complement on the rest (`Lemmas/LDLT.lean`); success iff the leading minors in pivot order do not vanish, and the rows with zero diagonal come last (`Props/EigenLDLT.lean`). The loop of `Solve` then only needs the reduced matrix of each iteration (`solve_iff`). |
| C112 | The QP of each iteration is put into the form C111 needs and `body_total_gen` gives totality (`Props/EigenLDLTNonlinear.lean`); examples in `Props/EigenLDLTExamples.lean`. |
| C113 | `Model/EigenQR.lean` transcribes Eigen's `ColPivHouseholderQR`, triangular solve and `LLT`. Householder reflections are orthogonal and zero the column below the pivot; loop invariant `Aᵀ = Q R` with exact column norms (`Lemmas/EigenQR*.lean`); Cholesky by the invariant `S = L Lᵀ` on finished columns and an explicit direction without curvature when a pivot fails (`Lemmas/EigenLLT.lean`). The reported rank is full iff every pivot exceeds `K eps` times the longest row. |
| C114 | The rows handed to the null-space solver are the gradients of the constraints (`linearize_rows`); then C113 per iteration (`Props/EigenQRNonlinear.lean`). |
| C115 | Corollaries that discharge the hypotheses `the call returned` and `LDLTContract`/`NSContract` of C12, C15, C50, C98 with C111–C114 (`Props/EndToEnd.lean`). |
| C116 | Simulation of two loops in agreeing states with different numbering and parameters that differ only in the initial values (`Props/Resume.lean`); any arithmetic. The counterexample by kernel evaluation in exact rational arithmetic. |
| C117 | Componentwise rounding error analysis of the transcription of `Eigen::LDLT` (C111) in doubles: what each entry is computed from holds in any arithmetic (induction over the steps); the error of each entry is local; the errors are then combined in real arithmetic (`Lemmas/LDLTDouble.lean`, `LDLTBackward.lean`, `LDLTResidual.lean`, `Props/LDLTRoundOff.lean`). The order of summation is free, but the subtraction from the right-hand side is modelled as one operation after the sum, as in `Model/EigenLDLT.lean`. The instance that is not stable by kernel evaluation. |
| C118 | A simulation between two solves (`Props/Units.lean`): linearised systems, directions, penalties, line searches, damping and exit tests correspond up to the units. The cubic interpolation's fixed threshold -1e-12 on the discriminant would break it, but after a refused Armijo step the discriminant is never negative (`rejected_discriminant`). Statement vocabulary in `Spec/UnitsSpec.lean`. |
| C119 | The slope of the cost along the Gauss-Newton step lies between -2 cost and 0 (the step minimises the linearised cost, which is not negative), so a small cost gives a small derivative, and the first-order test comes before the step. |
| C120 | A simulation between two solves (`Props/QPUnits.lean`). The Newton direction is characterised as the unique solution of the linearised KKT system (C09, `Regular`), which maps to the direction in the new units; step lengths, barrier updates and the guesses are then compared. Statement vocabulary in `Spec/QPUnitsSpec.lean`. Stopping is not compared except for sign changes: the termination test compares norms that mix units. |
| C121 | Both steps are minimisers of the same quadratic with different multiples of `|dx|^2` added (C34 and the contracts of the factorisations); adding the two optimality inequalities gives the monotonicity (`Props/Again.lean`). The second solve then meets the first-order test in its first line search (`slope_ends`, C119 after an absolute exit). |
| C122 | `ExactSolution` (`Spec/QPExactSpec.lean`) is the KKT system without the solver; `C122_exact_is_minimiser` shows that it means a minimiser. The distance bound is an identity for `(x-x*)' G (x-x*)` in the residuals of both points (`energy_identity`), bounded by C11 and C07 (`Props/QPDistance.lean`). Agreement of the solvers: both results are the unique minimiser (C15, C26). Which one returns: C27, C28, C111, C113. |
| C123 | Composition of C60 (lock order and program order), C93 (events of one solve) and C100 (the text) over the interleaving model; a thread's program is the list of events its solves submit (`SolvesOn`, `Props/ConcurrentSolves.lean`). The solves themselves share nothing but the collector (each has its own object), so their results do not depend on the schedule by construction of the model. |
| C124 | `Spec/PenaltySpec.lean` states the qualification and the bound. A raised penalty is the model increase over the violation; the minimiser of C26 is compared with the assumed correction, C76 bounds the cost by C times the *new* penalty, and the arithmetic-geometric mean inequality gives P <= P/2 + const, so no induction over the penalties is needed. Termination from C78's count with that bound; invalid step lengths are excluded through C42 and C45. The sum telescopes C36 and C45 divided by the growing penalties. |
| C125 | `Spec/SmoothEqSpec.lean` states the smoothness of the constraints. One iteration: the null-space rows remove the linearized violation at full rate, so the trial merit is at most the current one plus alpha times the logged derivative plus (Lf + P Lc)/2 alpha^2 |d|^2; the penalty rule of C44 bounds the curvature by four times the slope whenever the first-order test fails (two cases, violation above and below machine epsilon), which reduces everything to the line search analysis of C96, restated for any function below a parabola. Sums telescope as in C124. QP_INDEFINITE is excluded through C28 and the damping the next iteration would use. `C125_lipschitz` derives the smoothness from Lipschitz gradients of the components. |
| C126 | `Spec/EqBasinSpec.lean` states the ball. `Lemmas/EqGaussNewton.lean`: the step is compared with the displacement to the solution corrected by the shortest displacement onto the linearized constraints; the difference is orthogonal in the sense of the model, which bounds both the model residual and the distance by the squared distance. Inequalities on seven numbers then give the merit decrease by 8 %, the Armijo test, and a model value below zero, so the penalty formula asks for nothing. Induction over the iterations as in C88. |
| C127 | `Spec/SmallResidualSpec.lean` states the ball. `Lemmas/SmallResidual.lean`: the normal equations at the iterate and stationarity at the solution give `|J(e + d)|^2 = -<r*, (J - J*)(e + d)> + <m, J(e + d)>`, hence the contraction; Pythagoras for the model residual and the bound `L |r + J d| <= 5/8 sigma^2` give a decrease by at least `9/100 |J d|^2`. Growth of the cost from the model at the solution. Induction over the iterations as in C88. |
| C128 | `Spec/BoundedSpec.lean` defines `missed`. The Lagrangian identity of C68 bounds the slope by minus the curvature plus `missed`; above the tolerance, `missed` is at most half the slope, so the step satisfies `slope <= -2/3 curvature` and the line search analysis of C96 applies with `2/3 mu`. Iteration count as in C96. No hypothesis about the linear solver (C128_exact: zero for exact ones). |
| C129 | `Spec/FlipSpec.lean` defines the map of points and steps, and the rewritten bounds. The QPs of one iteration are each other's image under a signed permutation (`flip_direction`), so the relational results C82 (renumbering) and C120 (signs) about the interior point solver give corresponding directions and identical outputs (`flip_solve`); the rest of the iteration is the argument of C101. C129_any: any problem, default retraction. |
| C130 | The second problem is the first in the coordinates T = id, and `SameProblem` (C101, C129) allows the residuals to be listed in any order: the rows of the two QPs are matched by a permutation (`SameRows`, `rows_of_linearize`), the null space solver's answer depends only on the set they define, and C82 carries the permutation through the interior point solver. Example: two costs, two bounds and two equality constraints, each list reversed. Whether the second solve returns (`_returns`): a lock-step induction over the passes left; independence of the rows carries over to the other coordinates, so the null space solver returns too. |
| C131 | `Spec/DeterminedSpec.lean`. C65 lists what a solve can throw and C46/C28 what QP_INDEFINITE means; `eqRows_independent` and `rows_slopes` read the rows of the QP back as the linearized constraints, which excludes each case. Example: `twoFree_run`. |
| C132 | `Spec/StoppingSpec.lean` (which parameters, and which set is stricter). Any arithmetic: the two views of the log (C38's `View`) have the same states, by induction over the common iterations. Real numbers: a lock-step induction over the remaining iterations; an exit test met with the stricter tolerance is met with the looser one. The last iteration of a run that stops at the first-derivative tolerance is logged without a line search, so it may differ from the other run's. Examples: the mixed problem, and the demo QP. |
| C133 | `Spec/ObservationSpec.lean`. A pass with and without the callback, and with and without the statistics, is computed side by side (`body_both`, `body_log`); the loops follow by induction on the iterations left. Examples: the mixed problem watched, stopped, and with eigenvalues logged. |
| C134 | `Spec/RepresentationSpec.lean` (`withRetraction`, `NotToldApart`, `Unnoticed`), `Spec/AngleSpec.lean` (`wrapAll`, `addAndWrap`, `Angles`). Each function of the model commutes with `T`: linearization and errors are equal, the line search, the damping update, a pass and the loop give the same result with `T` applied to the variables and the candidate (`told_body`, `told_loop`). For angles, periodicity by one period gives periodicity by any whole number of periods in any number of variables (`told_turns`, `told_wrap`). Example: a bounded problem in an angle, started at `7` and at `7 - 2π`. |
| C135 | `Spec/GroupingSpec.lean` (`SameSquares`, `withCosts`, `rotatedResidual`, `componentsOf`). Equal sums of squares of the linear models for all steps give equal costs, gradients and Gram matrices by polarization, hence the same `G` (lower triangle as filled), `c` and cost (`grouped_linearize`, `grouped_evalErrors`); every other function of the model sees nothing else, so a pass and the loop are equal (`grouped_body`, `grouped_loop`). Example: the mixed problem with every residual written twice with weights 3/5 and 4/5, then split into components. |
| C136 | `Spec/SymmetrySpec.lean` (`Unread`); `SameProblem`, `flipMap` as in C101 and C129. `C136_symmetric`, `C136_symmetric_bounds` apply the equivariance of Solve with both problems equal; `C136_unread`, `C136_unread_bounds` use the reflection of the variable about its initial value, which the problem cannot notice; the `_throughout` theorems carry them to every iteration by running with a smaller `max_iterations` (`C132_prefix`). Examples: two interchangeable nonlinear residuals with two bounds, from any start on the diagonal; a bounded cost that does not list the second variable, from any start. |

## 3. Trusted base

1. **Lean 4.33.0's kernel.** No `native_decide`, no `bv_decide`, no axioms of our own. `scripts/axioms.sh` prints the
   axioms of every theorem in `MANIFEST.json`; its output is `AXIOMS.txt`. At most `propext`, `Classical.choice`,
   `Quot.sound` occur (`Classical.choice` comes in with Mathlib's reals and with `Classical` decidability of `<` on `ℝ`).
2. **The reading of the C++.** Each definition of `lean/Verif/Model` cites the lines it was written from. Nothing was
   compiled or run. The seeded-bug log `seeded/LOG.jsonl` shows that the theorems notice changes of the model, not that
   the model is the code.
3. **Libraries outside the repository**, represented by parameters or by definitions after their documentation:

   | library function | in the model | assumed |
   |---|---|---|
   | Eigen reductions (`sum`, `dot`, `squaredNorm`, `lpNorm<1>`, products) | `Scalar.sum : List α → α` | a *function* of the list of terms (same list, same result); in `ℝ` it is the sum; in binary64 (`Libm.sum`) nothing at all, except in C102–C108 and C117, which assume `AddsUp` (the terms are added in some order, one rounding per addition) |
   | Eigen `LDLT` (`qp.cc:226-243`, `qp.cc:302-311`) | `Eigen.ldltInverse` | nothing for theorems over any `Scalar`; `LDLTContract` (a reported success means `solve` inverts the selfadjoint matrix read from the lower triangle) for C09, C10, C15, C50; shown satisfiable by `exactEigen`. `Model/EigenLDLT.lean` transcribes the algorithm (Eigen 3.3.5-3.4 `LDLT.h`, unblocked; from knowledge of that file, the submodule is absent here; the cutoff `1/highest()` below which the solve treats a pivot as zero is a parameter, 0 in exact arithmetic); C111 proves the contract for it, and C111, C112 say when it fails; C117 bounds its rounding errors in binary64 |
   | Eigen column-pivoting QR, triangular solve, `LLT` (`qp.cc:657-729`) | `NSEigen` | `QRContract`, `TriContract`, `LLTContract` (`Spec/NullSpaceSpec.lean`) for C26-C28, C45; satisfied by `exactNS`, constructed from Gram-Schmidt in `Props/NullSpace.lean`. `Model/EigenQR.lean` transcribes the algorithms (Eigen 3.3/3.4, unblocked, from knowledge of those files; `eps`, `numeric_limits::min()` and the norm downdating threshold are parameters, the second one 0 in exact arithmetic); C113 proves the contracts for them, and C113, C114 say when the rank test gives up |
   | Eigen `SelfAdjointEigenSolver` for logging | parameter `eigenvalues` | nothing |
   | `nlohmann::json` | inductive `Json`, association lists; `dump` as text of a grammar (`Spec/JsonText.lean`) | conversions as documented: `get<double>` of `null` throws, non-finite numbers are dumped as `null`, `NLOHMANN_JSON_SERIALIZE_ENUM` falls back to the first entry |
   | `fmt` | strings as `List Char`; the rendering of a double is a parameter `FmtDouble` | integer and string formatting as documented |
   | `std::mutex`, threads | atomic steps interleaved in any order (`Model/Tracing.lean`) | mutual exclusion |
   | `math::SO3FromEulerAngles`, `math::EulerAnglesFromSO3` (geometry_utils) | parameters `Ext.so3`, `Ext.euler` | C73 only: `EulerContract` (a unit quaternion, and the returned matrix is its derivative in the right tangent space); satisfied by the XYZ convention (`xyz_contract`) |
   | `std::pow(x,3)` | `Scalar.cube` | exact in `ℝ`; any function in binary64 |
4. **Binary64** (`Model/Rounding.lean`, `Model/F64.lean`): the set of doubles (`m·2^e`, `m < 2^53`, `e ≥ -1074`, signed
   zero, infinities, one NaN), round to nearest even, `+ - * / sqrt`, comparisons, decimal literals. It is a definition,
   not an axiom. `Lemmas/IEEE.lean` proves that `+ - * /`, literals and `sqrt` of finite doubles return the nearest double,
   ties to even, with the overflow bound and the signs IEEE 754-2019 prescribes (`Spec/IEEE.lean`, written without the
   model's rounding), NaN and infinite operands (`ieee_special`) and the comparisons (`ieee_compare`). Not modelled: NaN payloads, exception flags, other rounding modes, x87 excess precision, fused
   multiply-add.

## 4. What is modelled and what is not

| source | modelled | not modelled |
|---|---|---|
| `qp.hpp`, `qp.cc` | constraints, `Var`, `QP`, `Setup`, parameter checks, the whole interior point solver with all buffers, predictor-corrector, barrier updates, initial guess, the iteration log, block accessors on the flat vector, `BuildFullSystem`, null-space solver | `std::unique_ptr`/const-ness, tracing macros inside these functions |
| `structs.hpp`, `structs.cc` | all structs, `LInfinity`, `Max`, counters, enum names, `ToString` with and without colour | how `fmt` prints doubles |
| `residual.hpp`, `residual.cc` | indices, gathering, `UpdateHessian`, `UpdateJacobian`, `QuadraticError`, `ErrorVector`, bounds checks | static-size dispatch in templates (dimension is a number in the model); callables whose *answers* depend on former calls, except in C87 (they may throw: `throws`, `throwsJ`; side effects: C86) |
| `nonlinear.hpp`, `nonlinear.cc` | everything: linearisation, solver choice, step direction, penalty selection, line search, interpolation, damping, exit tests, callback, log | a change of `Problem` while `Solve` runs (between solves: C85), a retraction that changes the vector size, what a throwing retraction leaves in the candidate (a throwing residual, retraction or callback is modelled) |
| `serialization.cc` | all `to_json`/`from_json` pairs and enum tables | lexer of `nlohmann::json` |
| `tracing.hpp`, `tracing.cc` | the collector, its locking, ring behaviour, `get_trace_json`, `scoped_trace` and the records a solve leaves | wall-clock reading |
| `assertions.hpp` | in the solvers: assertion failure as an outcome with a tag; the macros, formatters and messages in full (C99) | fields of `fmt` with format specifications |
| `test/transform_chains.{hpp,cc}` | `Pose`, `ChainComputationBuffer`, `ComputeChain`, `ComputeAllPoses`, `ActuatorLink`, `ActuatorChain` with its cache | storage of the matrices (lists of columns in the model) |
| other `test/*` | `test_utils` and the random QP generator of `qp_test.cc` (C94); the problems of `DemoNLS`/`DemoReal` are in their style | the remaining test code |

Kinds of undefined behaviour that are explicit outcomes (`Fault.ub`): out-of-range vector access with `EIGEN_NO_DEBUG`
(`CMakeLists.txt:49-51`), `const operator[]` of a missing JSON key, size mismatches in Eigen expressions. Allocation
failure and integer overflow of `int` counters are not modelled.

## 5. Levels of arithmetic, property by property

* *Any arithmetic* (no law used, so including binary64): C05, C06, C13, C14, C16, C19, C20, C21, C38, C39 (log form), C40 (chain form),
  C43 (state machine), C44 (update rule), C45 (choice of solver), C46-C48, C51-C62, C66, C74, C75, C79-C81, C84 (calls), C85, C86, C87 (except the real-number part), C89, C99, C100.
* *Binary64*: C01, C03, C04, C06, C07, C36, C37, C40, C43, C44, C48, C52, C63, C76, C77, C78, C87 (theorems named `_double`, and C63), C17 (counterexample), C102-C109 (rounding error bounds, signs, bounds on the variables, exceptions).
* *Exact*: the rest. The English statement of such a property says "in exact arithmetic" where rounding would break it.

## 6. Findings

Things the proofs turned up about the code as it is (each is a theorem or a witness, named in brackets):

* `ClampX` of a constraint with a non-unit coefficient can return an infeasible point in doubles: `a = 49, b = -1`
  (`C01_double_infeasible`). For bounds made with `Var` it is exact (`C01_double_var`).
* The header comment of `ComputeAlpha` (`qp.hpp:267`, value after the step at least `(1 - tau)` times the value before) does
  not hold: a component whose full step stays positive may shrink by more (C08). The predictor-corrector's `mu_affine`
  uses `mu` in place of `sᵀz/M`; the two agree in the first iteration only (C18).
* `Setup` and `ShiftTo` do not reject negative variable indices (C05). `termination_complementarity_tol` is not validated (C06); with NaN the solver never reports `SATISFIED_KKT_TOL` (`C06_double`).
* In doubles a slack can reach exactly 0 by underflow although `ComputeAlpha` keeps it positive in exact arithmetic
  (`C07_double_underflow`).
* Residuals with repeated indices are accepted, and then `UpdateJacobian` is *not* the Jacobian (C31).
* Equality constraints of total dimension 0 make the null-space path fail an assertion (C65).
* `FAILURE_INVALID_ALPHA` and `FAILURE_NON_FINITE_COST` leave the state unchanged, so the same step is recomputed until
  `max_iterations` (C48).
* `equality_penalty_initial = 0` is accepted by the parameter check and then fatal (C52). The size of the start vector is
  not checked (C53).
* In exact arithmetic the polynomial line search cannot fail with `FAILURE_INVALID_ALPHA` when the directional derivative is
  negative, and every trial shrinks the step by a factor below 0.51 (`C42_never_fails`); the failure occurs only when the
  derivative is exactly zero (`C42_invalid_alpha_cause`).
* The log mixes times: `optimizer_state` is the state after the update, `lambda` the value before it, `penalty` the value
  after it was raised (C43, C44). The exit `QP_INDEFINITE` logs nothing and does not call the callback (C46, C47).
* `KKTError::Max`, `Errors::LInfinity` and `std::max` drop a NaN unless it is in the first slot (`C63_max_masks_nan`).
* `NaN` probes are dumped as `null` and then cannot be read back (C58). An unknown enum string is read as the first entry
  without an error (C59). Missing members are undefined behaviour for `NLSIteration`/`NLSSolverOutputs`, and interior point outputs that lack `iterations` or `termination_state` are read as a null-space success (C66).
* `get_trace_json` reads the collector without the lock (`C61_dump_races`). Names are not escaped (`C62_quote_breaks`).
* `ActuatorChain::Update` stores the parameters before it checks their number: a call with the wrong size throws, the same
  call again is silently accepted (`C74_wrong_size`). A chain without active parameters never computes, and `translation()`
  then reads an empty vector (`C74_no_active`). NaN parameters are ignored once there are results (`C74_nan_ignored`).
* `Pose::Inverse` is wrong for quaternions that are not normalised (`C70_inverse_needs_unit`). `ComputeAllPoses` of an empty
  chain is undefined behaviour where `start_T_end` asserts (`C71_empty`).
* `lambda_failure_init = 0` is accepted; a failed iteration without damping is then repeated unchanged (`C77_zero_failure_init`). Otherwise, without equality constraints, the solver always stops by itself in exact arithmetic (`C78_terminates`).
* C85: removing equality constraints from a `Problem` after the solver has been constructed is not detected: the QP is left with zero rows in `A_eq` (`nonlinear.cc:191-206` asserts only that rows do not overflow), which makes every interior point system singular and the null-space solver undefined. A residual longer than any at construction overruns `error_buffer_`.
* C89: `QPInteriorPointSolver::Setup` stores the pointer before it checks the sizes, and the sizes before it checks the indices (`qp.cc:23-39`, `70-72`): after a rejected `Setup` the object has lost its former problem, and `Solve` passes its null check and runs on the rejected one (`C89_rejected`).
* The exit states of the nonlinear solver ignore the bounds: started at a stationary point of the cost outside the bounds it reports `SATISFIED_FIRST_ORDER_TOL` at that point (`C91_stationary_start`), and when feasible points cost more than the start it never becomes feasible (`C91_never_feasible`).
* (C92) A scope in a destructor that runs because of an exception is dropped even if it completes; scopes are printed with start and duration truncated separately, so a nested scope can stick out of the enclosing one by 1 µs in the JSON (`C92_sticks_out`). `std::chrono::high_resolution_clock` may be the system clock, which can run backwards: the nesting theorem needs a monotone clock.
* (C94) `GenerateRandomPDMatrix` (`test/test_utils.cc:32`) copies the strictly lower (zero) triangle over the upper one, so all 1000 random QPs of `TestGeneratedProblems` have a diagonal Hessian; fixing the copy alone would make the test's expected solutions wrong (`C94_needs_diagonal`).
* (C95) the interior point solver uses different step lengths for `x, s` and `y, z`, so for a quadratic objective the dual residual is not monotone: on `min ½x² + 2x, x ≥ 0` from `x = -1, s = z = 1` it goes from exactly 0 to a nonzero value in one iteration (`C95_dual_can_appear`).
* With the default `max_lambda = 1` a smooth cost whose curvature exceeds 0.2 is outside the range in which `C96_no_max_lambda` excludes giving up with `MAX_LAMBDA`; `lambda` is absolute, not relative to the scale of the problem.
* Refused full steps on linear problems (C98): with linear costs and constraints the full step leads exactly to the solution, yet with default parameters the penalty rule (rho = 0.1) lets the merit function refuse it when the curvature along the step exceeds about 2000 * penalty * violation. The price is one more iteration per halving, not a failure.
* The comparison macros of `assertions.hpp` evaluate their operands twice when they fail, and print the values of the second evaluation (`C99_evaluated_twice`); the library itself passes only operands without side effects. `F_ASSERT_NE(a, 0)` lets a NaN coefficient through `ClampX` (`C99_nan`).
* **Damping depends on the units** (C101). The damping adds `lambda` to every diagonal entry of the Hessian (not scaled by the diagonal), so a damped solve changes when variables are measured in other units: `C101_damping_matters`.
* **The complementarity norm cancels in doubles** (C17). `r_comp` is computed as `sqrt(max(|sz|² - 2 mu sum(sz) + mu² M, 0))`, which loses all digits when `s z` is close to `mu`: with one constraint, `s z = 1 + 2^-27` and `mu = 1` it is exactly 0 although the difference is seven times the default tolerance (`C17_double_cancellation`). Computing the norm of `sz - mu` directly would not cancel. It does not weaken the optimality bound of C102, which does not use that norm.
* C107: if the admissible step length underflows, it can be rounded up by almost a factor of two, and the slack that limits it becomes negative although the rule keeps 0.5 % distance (slack `0.6 * 2^-74`, change `-2^1000`). The next iteration then fails the assertion on slacks; if it is the last one, a negative slack is returned (`C107_underflowed_step`).
* Badly scaled but finite data make the solvers throw assertions meant for programming errors: the QP `½x² - x` with the bound `2^1000 x ≥ 2^1000` throws "Some slack variables s <= 0" (`C109_overflow`), and a start whose cost overflows makes the nonlinear `Solve` throw instead of reporting a failure (`C109_start_overflow`).
* Maratos effect: with the default initial penalty 1 the line search refuses the full step at every point `(-y², y)`, `10⁻³ ≤ |y| ≤ 1/2`, of the zero-residual problem `x = y = 0`, `x + y² = 0`, so the fast local convergence of C88 is lost with equality constraints; rescaling the constraint by 0.4 restores it (`C110_default`, `C110_units`). There is no second-order correction or watchdog in the code.
* Eigen's LDLT reports failure when a valid pivot follows a zero pivot, and picks pivots by the *input* diagonal. For the reduced matrix `[G+D Aᵀ; A 0]` this means that equality constraints do not help: a QP with a unique solution throws FailedFactorization as soon as a direction is pinned by an equality constraint only (`C111_fixed`), although the null-space solver handles it (C26).
* Consequence for nonlinear problems: adding an inactive bound to a well-posed problem with equality constraints switches to the interior point solver and can make `Solve` throw (`C112_bound_throws` vs `C112_without_bound`). A positive `min_lambda` avoids it (`C112_damped`).
* With a singular Hessian, whether `QPInteriorPointSolver::Solve` throws depends on the units of unrelated variables (`C111_units`).
* Equality constraints in very different units are undefined behaviour: `QPNullSpaceSolver::Solve` multiplies `Q1` (`rank` columns) by a vector of length `K`, and Eigen reports `rank < K` as soon as one row is at most `K eps` times as long as another, although the rows are independent and the same problem with rescaled constraints is solved (`C113_units`, `C114_units`). There is no check of `rank` in the code.
* Running `Solve` in slices with unchanged parameters is not the same as running it once: each call resets `lambda` and the penalty, so a problem that one call abandons with `MAX_LAMBDA` can keep a caller busy for ever with `MAX_ITERATIONS` (`C116_slices`). To resume, pass the logged `lambda` and penalty as initial values (`C116_resume`).
* `Eigen::LDLT` does not pivot for stability on the indefinite matrices that equality constraints give: with `G = diag(2^-60, 1)` and the constraint `x0 + x1 = 0` the KKT matrix is perfectly conditioned, the factorisation reports success, and the first Newton step violates the constraint by one (`C117_unstable`, `C117_first_step`). Here the next iteration repairs it (compare C105); without equality constraints the solve is backward stable (`C117_solve`, `C117_no_growth`).
* The default parameters carry units: `absolute_exit_tol` and `absolute_first_derivative_tol` are compared with costs. With residuals in units of 1e4 the default parameters return the initial guess unchanged (`C118_defaults_carry_units`).
* Without constraints a cost below `absolute_first_derivative_tol / 2` (5e-7 by default) is never improved, so the default `absolute_exit_tol` = 1e-12 is much stricter than what the solver works towards (`C119_small_cost`).
* The initial guesses set z = 1/s and keep slacks above 1e-9, so they fix the units of the cost and of the inequality constraints: QPs that differ only in those units are solved along different paths (C120 needs `u.γ = 1` and `u.t m = 1` for guesses).
* (C126) The condition for fast local convergence with equality constraints is `penalty * Lc <= sigma^2 / 2` (`Lc` curvature of the constraints, `sigma` smallest singular value of the cost Jacobian); the penalty never decreases, so a penalty raised far from the solution can make the last phase slow for ever (C110).
* With default parameters a QP with bounds that ends with SATISFIED_KKT_TOL may leave a duality gap of 1e-6 per bound, which is not below half of the default `absolute_first_derivative_tol` of 1e-6: the guarantee of C128 needs a larger derivative tolerance. Otherwise the returned direction may be one of (slight) ascent although the first-order test has not been met, and the solver raises lambda.
* C101 (any linear change of variables without bounds) does not extend to problems with bounds: the bounds are on single variables, so only signed permutations, shifts and scalings keep the form of the problem, and scalings need matching units of cost, bounds and tolerances (C118, C120). Signed permutations and shifts are what is left, and are harmless (C129).
* `max_line_search_iterations = INT_MAX` passes the parameter check, but the loop condition `iter <= max_iterations` (`nonlinear.cc:366`) is then always true: after 2^31 refused steps `++iter` overflows a signed int. The model counts in unbounded integers, so for this one parameter value a run that refuses that many steps is outside the model.

## 7. Testing the theorems

`seeded/LOG.jsonl`: one line per wrong program. Manual batches are realistic bugs, each tied to the claim it breaks;
automatic ones change one operator, comparison, constant, field or string of a definition in `Model/`. The build of the
edited copy has to fail; if it does not, either the change has no observable effect on any claim (then the line says so) or a theorem
was tightened (then the line names it).

## 8. Validation of the model against the repository's own tests

The theorems are about the model, so a transcription error would be invisible to the kernel. As a check of the
transcription (a test, not a proof, and no theorem depends on it) the model's definitions were instantiated with Lean's
`Float` and Eigen's factorisations were replaced by textbook ones (Gauss-Jordan, pivoted Householder QR, Cholesky), and
the scenarios of `/repo/test/nonlinear_test.cc` and `/repo/test/qp_test.cc` were run on them in a scratch copy. Every
assertion those tests make about termination state, solution, number of QP iterations, number of line search steps and
failed line searches holds of the model: Rosenbrock (9/9 guesses), RosenbrockLM (9/9), inequality constrained Rosenbrock
(6/6), Rosenbrock6D (2/2), Himmelblau (961/961), Himmelblau in one quadrant (529/529), sphere with nonlinear equalities
(100/100, with different random guesses), two angle actuator chain with and without inequalities (315/315, 240/240), dual
actuator balancing (3/3), and six of the QP solver tests. Not run: the 1000 random QPs, serialization and tracing.
`validation/` holds the harness: `FloatInst.lean.txt` (the instance), `Run*.lean.txt` (scenarios), `memo.patch` (the
definitions are functions on `Fin n`; the patch inserts extensionally trivial memoisation so that they run in reasonable
time) and `RESULTS.txt`. The files are not Lean modules of the project.
