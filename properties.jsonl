{"id": "C01", "title": "Clamping projects onto the constraint", "statement": "For an inequality constraint a*x+b>=0 with a != 0, ClampX(x) satisfies the constraint, returns x unchanged exactly when x already satisfies it, is idempotent and is the nearest satisfying value; with a == 0 ClampX throws.", "quantifier": "every a, b, x (exact arithmetic); all doubles for Var bounds; a concrete counterexample shows rounding can break it in binary64 for other slopes", "why_tests_cant": "a test samples a handful of coefficients; the claim ranges over all of them", "anchors": ["include/mini_opt/qp.hpp:LinearInequalityConstraint::ClampX", "include/mini_opt/qp.hpp:LinearInequalityConstraint::IsFeasible"]}
{"id": "C02", "title": "Shifting a constraint preserves its meaning", "statement": "c.ShiftTo(x0) accepts a displacement dx exactly when c accepts x0+dx; shifting keeps variable and slope; shifting by a vector throws when the constrained variable index is >= the vector size.", "quantifier": "every constraint, linearisation point and displacement", "why_tests_cant": "infinitely many points", "anchors": ["include/mini_opt/qp.hpp:LinearInequalityConstraint::ShiftTo"]}
{"id": "C03", "title": "Var bounds mean what they say", "statement": "(Var(i) >= v).IsFeasible(x) is true exactly when x >= v, and (Var(i) <= v).IsFeasible(x) exactly when x <= v, for every finite double x and v, rounding included.", "quantifier": "all finite binary64 x, v (and all reals)", "why_tests_cant": "2^128 pairs of doubles", "anchors": ["include/mini_opt/qp.hpp:Var"]}
{"id": "C04", "title": "Sequential clamping reaches the box", "statement": "Clamping a vector by each constraint in turn ends at a point satisfying all constraints whenever some point satisfies all of them, in any constraint order and with any number of constraints per variable.", "quantifier": "every finite list of constraints with non-empty intersection, every start vector", "why_tests_cant": "unbounded number of constraints and orders", "anchors": ["source/qp.cc:QPInteriorPointSolver::ComputeInitialGuess"]}
{"id": "C05", "title": "Setup validates dimensions and indices", "statement": "Setup throws exactly when the problem pointer is null, G is not square, c/A_eq/b_eq dimensions disagree, or some constraint index is >= N, with the message of the first condition that fails; otherwise it accepts the problem unchanged. After acceptance every element access of Solve is in range exactly when no constraint index is negative: negative indices are accepted and then read out of range (witness).", "quantifier": "every QP description with arbitrary (also negative) indices", "why_tests_cant": "needs all malformed inputs; the unchanged code accepts negative indices, so the second half is false and is refuted by a witness", "anchors": ["source/qp.cc:QPInteriorPointSolver::Setup"]}
{"id": "C06", "title": "QP parameters are validated", "statement": "QPInteriorPointSolver::Solve throws an assertion before touching the variables exactly when initial_mu<=0, sigma not in (0,1], termination_kkt_tol<=0 or max_iterations<=0, with NaN counting as invalid. A NaN termination_complementarity_tol is not rejected; then the solver never reports SATISFIED_KKT_TOL.", "quantifier": "all parameter values including NaN and infinities", "why_tests_cant": "all doubles", "anchors": ["source/qp.cc:CheckParams"]}
{"id": "C07", "title": "Slacks and multipliers stay strictly positive", "statement": "Started from a built-in initial guess (or a user guess with s,z>0) every iterate of the interior point solver has s>0 and z>0 componentwise, so the 'slack variables s <= 0' assertion never fires, whatever the linear solver returns (exact arithmetic). In binary64 the same holds for every single iteration whose slacks and multipliers are >= 2^-1000 and change by at most a factor 2^1000; for the smallest subnormal it fails (witness).", "quantifier": "every problem, every barrier strategy, every number of iterations, every search direction; per iteration in binary64", "why_tests_cant": "invariant over unbounded iteration histories", "anchors": ["source/qp.cc:QPInteriorPointSolver::Iterate", "source/qp.cc:QPInteriorPointSolver::ComputeAlpha"]}
{"id": "C08", "title": "Step length rule", "statement": "The step length returned for (val, d_val, tau) with val>0 lies in (0,1], keeps val+alpha*d_val>0 for tau<1 (>=0 for tau=1), is 1 if the full step stays positive and is maximal up to the factor tau; the documented guarantee val+alpha*d >= (1-tau)*val is refuted by a witness.", "quantifier": "all vectors, all tau in (0,1]", "why_tests_cant": "all vector sizes and values", "anchors": ["source/qp.cc:QPInteriorPointSolver::ComputeAlpha", "include/mini_opt/qp.hpp:ComputeAlpha"]}
{"id": "C09", "title": "The computed direction solves the full KKT Newton system", "statement": "The direction computed by eliminating slacks and inequality multipliers satisfies all four block rows of the full (unreduced) Newton system for the given mu, including the second-order corrector term in predictor-corrector mode.", "quantifier": "all problems, all states with s>0, z>0, all mu", "why_tests_cant": "tests compare four fixed instances against LU", "anchors": ["source/qp.cc:QPInteriorPointSolver::ComputeLDLT", "source/qp.cc:QPInteriorPointSolver::SolveForUpdate", "source/qp.cc:QPInteriorPointSolver::BuildFullSystem"]}
{"id": "C10", "title": "Primal residuals contract", "statement": "After each interior point iteration the inequality residual a x + b - s is exactly (1 - alpha_primal) times its previous value, so over a whole Solve it never grows and, once zero, stays zero. The same holds for the equality residual A x + b of every regular problem (independent equality rows; G positive semidefinite along the directions these leave free and strictly positive along those of them no inequality sees; G itself may be singular).", "quantifier": "all problems (inequality residuals), all regular problems (equality residuals), and all iteration counts", "why_tests_cant": "unbounded iteration histories", "anchors": ["source/qp.cc:QPInteriorPointSolver::Iterate", "source/qp.cc:QPInteriorPointSolver::Solve"]}
{"id": "C11", "title": "SATISFIED_KKT_TOL is truthful", "statement": "When Solve reports SATISFIED_KKT_TOL the returned (x,s,y,z) really satisfies, recomputed from the problem data, ||G x + c - A^T y - A_i^T z||, ||A x + b||, ||a x + b - s||, ||s.*z - mu|| < termination_kkt_tol and s^T z / M < termination_complementarity_tol.", "quantifier": "all problems, parameters, start states", "why_tests_cant": "every termination, not sampled ones", "anchors": ["source/qp.cc:QPInteriorPointSolver::Solve", "source/qp.cc:QPInteriorPointSolver::ComputeErrors"]}
{"id": "C12", "title": "Reported solutions are near-optimal", "statement": "For convex G, when Solve reports SATISFIED_KKT_TOL the objective at the returned x exceeds that of any feasible point x' by at most (M*comp_tol) + tol*||x-x'|| + tol*||y|| + tol*||z||.", "quantifier": "all convex problems and all feasible comparison points", "why_tests_cant": "quantifies over all feasible points", "anchors": ["source/qp.cc:QPInteriorPointSolver::Solve"]}
{"id": "C13", "title": "QP iteration bookkeeping", "statement": "Solve logs between 1 and max_iterations iterations; it reports MAX_ITERATIONS only after exactly max_iterations iterations none of which met the exit test, and SATISFIED_KKT_TOL exactly when the last logged iteration (and no earlier one) met it.", "quantifier": "all runs, any arithmetic (also NaN)", "why_tests_cant": "all histories", "anchors": ["source/qp.cc:QPInteriorPointSolver::Solve"]}
{"id": "C14", "title": "QP log is consistent between iterations", "statement": "The dual, equality and inequality residual norms logged as final for iteration k are those logged as initial for iteration k+1, and each logged value is the residual norm of the iterate at that moment.", "quantifier": "all runs", "why_tests_cant": "all histories", "anchors": ["source/qp.cc:QPInteriorPointSolver::Solve"]}
{"id": "C15", "title": "Problems without inequalities are solved in one iteration", "statement": "With no inequality constraints, full-rank A_eq and G positive definite along the directions A_eq leaves free, the first iteration lands exactly on the unique minimiser and Solve returns SATISFIED_KKT_TOL after one iteration.", "quantifier": "all equality constrained convex QPs and start points", "why_tests_cant": "all problem data", "anchors": ["source/qp.cc:QPInteriorPointSolver::Iterate"]}
{"id": "C16", "title": "Barrier parameter schedule", "statement": "mu stays positive; under FIXED_DECREASE without the small-error gate iteration k uses initial_mu*sigma^k; under the other strategies each later iteration uses sigma times the current average complementarity; with the gate, mu changes only when the max KKT error is <= mu.", "quantifier": "all runs", "why_tests_cant": "unbounded iteration count", "anchors": ["source/qp.cc:QPInteriorPointSolver::Solve"]}
{"id": "C17", "title": "Complementarity error formula", "statement": "The logged r_comp equals the Euclidean norm of (s_i z_i - mu)_i although it is computed from an expanded square, and its argument is never negative in exact arithmetic.", "quantifier": "all s, z, mu, M", "why_tests_cant": "all vectors", "anchors": ["source/qp.cc:QPInteriorPointSolver::ComputeErrors"]}
{"id": "C18", "title": "Predictor-corrector affine complementarity", "statement": "mu_affine equals the average complementarity after the affine probe step and is >= 0; the code substitutes the barrier parameter for s^T z / M, so equality holds exactly when they coincide; a witness refutes it otherwise.", "quantifier": "all states and probe steps", "why_tests_cant": "all states; code comment asserts an unproved invariant", "anchors": ["source/qp.cc:QPInteriorPointSolver::ComputePredictorCorrectorMuAffine"]}
{"id": "C19", "title": "Solver reuse does not leak state", "statement": "With a built-in initial guess, Solve's outputs and final variables are the same whatever was solved before on the same object: stale variables, factorisation and step buffers are never observed.", "quantifier": "all previous histories, all problems of the same or other dimensions", "why_tests_cant": "all histories of Setup/Solve calls", "anchors": ["source/qp.cc:QPInteriorPointSolver::Setup", "source/qp.cc:QPInteriorPointSolver::Solve"]}
{"id": "C20", "title": "Lagrange multiplier summary", "statement": "The summary is absent exactly when there are no equality constraints; otherwise min is the least multiplier and l_infinity the largest absolute multiplier, both attained.", "quantifier": "all multiplier vectors", "why_tests_cant": "all vectors", "anchors": ["source/qp.cc:QPInteriorPointSolver::ComputeLagrangeMultiplierSummary"]}
{"id": "C21", "title": "Variable blocks partition the state", "statement": "For a state vector of size N+2M+K the x, s, y, z blocks are disjoint, in that order, cover the vector, and writing one block changes no other; SetVariables with another size breaks this (witness).", "quantifier": "all dimensions", "why_tests_cant": "all sizes", "anchors": ["source/qp.cc:QPInteriorPointSolver::ConstXBlock", "source/qp.cc:QPInteriorPointSolver::ZBlock", "source/qp.cc:QPInteriorPointSolver::SetVariables"]}
{"id": "C22", "title": "Initial guess", "statement": "NAIVE and SOLVE_EQUALITY_CONSTRAINED produce x inside the box when it is non-empty, s >= 1e-9 with s = a x + b whenever that is >= 1e-9, and z = 1/s; with no active bound SOLVE_EQUALITY_CONSTRAINED gives the equality-constrained minimiser (for independent equality rows and G positive definite along the directions they leave free); USER_PROVIDED changes nothing.", "quantifier": "all problems", "why_tests_cant": "all problem data", "anchors": ["source/qp.cc:QPInteriorPointSolver::ComputeInitialGuess"]}
{"id": "C23", "title": "Interior point iterates respect the bounds", "statement": "Every interior point iterate started from a built-in guess satisfies a*x+b >= -1e-9 for every constraint (strictly > 0 where the guess was at least 1e-9 inside), if the box is non-empty.", "quantifier": "all problems, all iterations", "why_tests_cant": "unbounded histories", "anchors": ["source/qp.cc:QPInteriorPointSolver::Solve"]}
{"id": "C24", "title": "The factorised matrix is nonsingular", "statement": "For every regular problem (independent equality rows; G positive semidefinite along the directions these leave free and strictly positive along those of them no inequality sees; G itself may be singular) and s,z>0 the matrix handed to LDLT is nonsingular, so the Newton step is well defined. For positive semidefinite G, as in Gauss-Newton, it is nonsingular only then: it is singular exactly when the equality rows are dependent or some nonzero direction is invisible to the equality rows, to the inequality constraints and to G.", "quantifier": "all problems and interior states", "why_tests_cant": "all matrices", "anchors": ["source/qp.cc:QPInteriorPointSolver::ComputeLDLT"]}
{"id": "C25", "title": "Only the lower triangle of G matters", "statement": "Changing entries of G strictly above the diagonal changes neither outputs nor solution of the interior point solver.", "quantifier": "all problems, all pairs of matrices agreeing on the lower triangle", "why_tests_cant": "all matrices", "anchors": ["source/qp.cc:QPInteriorPointSolver::ComputeLDLT", "source/qp.cc:QPInteriorPointSolver::EvaluateKKTConditions"]}
{"id": "C26", "title": "Null-space solver returns the constrained minimiser", "statement": "On SUCCESS (full row rank constraints) the result satisfies A x + b = 0 and its objective is less than that of every other x' with A x' + b = 0.", "quantifier": "all problems with independent constraints", "why_tests_cant": "quantifies over all feasible points", "anchors": ["source/qp.cc:QPNullSpaceSolver::Solve"]}
{"id": "C27", "title": "Null-space solver needs independent constraints", "statement": "With linearly dependent equality rows (or more rows than variables) the code multiplies blocks of mismatched size (undefined behaviour in release builds); with independent rows no such access happens; zero constraints are rejected by an assertion.", "quantifier": "all equality systems", "why_tests_cant": "all ranks", "anchors": ["source/qp.cc:QPNullSpaceSolver::Solve"]}
{"id": "C28", "title": "NOT_POSITIVE_DEFINITE is truthful", "statement": "The null-space solver reports NOT_POSITIVE_DEFINITE exactly when the Hessian restricted to the constraint null space is not positive definite, and then leaves its variables unchanged.", "quantifier": "all problems with independent constraints", "why_tests_cant": "all matrices", "anchors": ["source/qp.cc:QPNullSpaceSolver::Solve"]}
{"id": "C29", "title": "UpdateHessian accumulates J^T J and J^T r", "statement": "For a residual with distinct indices UpdateHessian adds exactly the lower triangle of J^T J (J scattered to full size) to H and J^T r to b, and nothing else; with repeated indices it does not (witness).", "quantifier": "all index lists, Jacobians, prior H and b", "why_tests_cant": "all index permutations and sizes", "anchors": ["include/mini_opt/residual.hpp:Residual::Model::UpdateHessian"]}
{"id": "C30", "title": "Residual error values agree", "statement": "UpdateHessian's return value equals QuadraticError and half the squared norm of ErrorVector, for functions whose value does not depend on whether a Jacobian was requested.", "quantifier": "all residuals and parameter vectors", "why_tests_cant": "all functions", "anchors": ["include/mini_opt/residual.hpp", "source/residual.cc:Residual::QuadraticError"]}
{"id": "C31", "title": "UpdateJacobian scatters columns", "statement": "UpdateJacobian on a zeroed block yields exactly the Jacobian in full coordinates for distinct indices; columns of other variables are untouched; a repeated index keeps only the last column (witness).", "quantifier": "all index lists and Jacobians", "why_tests_cant": "all index lists", "anchors": ["include/mini_opt/residual.hpp:Residual::Model::UpdateJacobian"]}
{"id": "C32", "title": "Residual indices are bounds-checked", "statement": "A residual index that is negative or >= the parameter count makes every residual operation throw before anything is written; accepted residuals never access out of range.", "quantifier": "all index lists (also negative) and sizes", "why_tests_cant": "all indices", "anchors": ["include/mini_opt/residual.hpp:GatherValues"]}
{"id": "C33", "title": "Cost order is irrelevant", "statement": "Permuting the costs of a problem changes neither the linearised QP nor the total error (exact arithmetic).", "quantifier": "all permutations of all cost lists", "why_tests_cant": "factorially many orders", "anchors": ["source/nonlinear.cc:ConstrainedNonlinearLeastSquares::LinearizeAndFillQP"]}
{"id": "C34", "title": "The QP is the Gauss-Newton model", "statement": "With distinct indices, for every dx the linearised QP satisfies f + c^T dx + 1/2 dx^T G dx = 1/2||h + J dx||^2 + lambda/2||dx||^2 (lambda>0), and A_eq dx + b_eq is the linearised equality residual; the QP's G is symmetric positive semidefinite.", "quantifier": "all problems, linearisation points, dx, lambda", "why_tests_cant": "all functions and points", "anchors": ["source/nonlinear.cc:ConstrainedNonlinearLeastSquares::LinearizeAndFillQP"]}
{"id": "C35", "title": "Directional derivative is the derivative of the merit function", "statement": "For differentiable residuals with correct Jacobians and nonzero equality residual components, d_f + penalty*d_equality is the derivative at alpha=0 of f(x+alpha dx) + penalty*||c(x+alpha dx)||_1; for zero components the one-sided derivative differs by |A_i dx|, which vanishes for exact QP steps.", "quantifier": "all problems, points, directions, penalties", "why_tests_cant": "numerical tests check one point", "anchors": ["source/nonlinear.cc:ConstrainedNonlinearLeastSquares::ComputeQPCostDerivative"]}
{"id": "C36", "title": "Accepted steps satisfy sufficient decrease", "statement": "Whenever an iteration reports SUCCESS, the merit at the new variables is <= old merit + 1e-4*alpha*derivative with alpha in (0,1] and derivative <= 0, hence not larger than before.", "quantifier": "all problems, params, iterations (exact arithmetic and binary64)", "why_tests_cant": "all histories", "anchors": ["source/nonlinear.cc:ConstrainedNonlinearLeastSquares::SelectStepSize"]}
{"id": "C37", "title": "Cost never increases without equality constraints", "statement": "For a problem without equality constraints the cost at the variables returned by Solve is <= the cost at the initial variables, and the sequence of logged initial costs is non-increasing.", "quantifier": "all problems, params, start points (exact arithmetic and binary64)", "why_tests_cant": "global claim over whole runs", "anchors": ["source/nonlinear.cc:ConstrainedNonlinearLeastSquares::Solve"]}
{"id": "C38", "title": "Variables move only by accepted steps", "statement": "The final variables are obtained from the initial ones by applying, for exactly the iterations logged SUCCESS and in order, the retraction with that iteration's direction and last logged alpha; other iterations leave them unchanged.", "quantifier": "all runs, any retraction, any arithmetic", "why_tests_cant": "all histories", "anchors": ["source/nonlinear.cc:ConstrainedNonlinearLeastSquares::Solve", "source/nonlinear.cc:RetractCandidateVars"]}
{"id": "C39", "title": "Logged errors are consistent", "statement": "Each logged errors_initial is the nonlinear error of the variables at that moment; after a SUCCESS it equals the last line-search entry of the previous iteration, otherwise the previous errors_initial.", "quantifier": "all runs", "why_tests_cant": "all histories", "anchors": ["source/nonlinear.cc:ConstrainedNonlinearLeastSquares::Solve"]}
{"id": "C40", "title": "Line search step sequence", "statement": "Every logged line search starts at alpha=1, has strictly decreasing alphas in (0,1], at most max_line_search_iterations+1 entries; under ARMIJO_BACKTRACK the k-th alpha is tau^k; only the last entry can meet the acceptance test.", "quantifier": "all runs, both strategies", "why_tests_cant": "all histories", "anchors": ["source/nonlinear.cc:ConstrainedNonlinearLeastSquares::SelectStepSize"]}
{"id": "C41", "title": "Quadratic interpolation after a rejected full step", "statement": "With a negative directional derivative, after the full step was rejected the quadratic interpolation always returns the exact minimiser of the interpolating parabola, in (0, alpha0/(2(1-1e-4))), so FAILURE_INVALID_ALPHA cannot come from the first interpolation.", "quantifier": "all merit values meeting the rejection condition", "why_tests_cant": "all reals", "anchors": ["source/nonlinear.cc:ConstrainedNonlinearLeastSquares::QuadraticApproxMinimum"]}
{"id": "C42", "title": "Cubic interpolation", "statement": "CubicApproxCoeffs yields the unique cubic matching phi(0), phi'(0), phi(alpha0), phi(alpha1), throws unless 0<alpha1<alpha0, and CubicApproxMinimum returns its stationary point with nonnegative curvature, which lies in (0, alpha1) when phi(alpha1) >= phi(0). In a solve (exact arithmetic) with a negative directional derivative interpolation never fails: every step length is below 0.51 times the previous one but at least 1/4.1 of minus the slope divided by the curvature estimate of the refused trial, and FAILURE_INVALID_ALPHA occurs only when the directional derivative is exactly zero.", "quantifier": "all interpolation data; all solves and line searches of any length", "why_tests_cant": "all reals", "anchors": ["source/nonlinear.cc:ConstrainedNonlinearLeastSquares::CubicApproxCoeffs", "source/nonlinear.cc:ConstrainedNonlinearLeastSquares::CubicApproxMinimum", "source/nonlinear.cc:ConstrainedNonlinearLeastSquares::SelectStepSize"]}
{"id": "C43", "title": "Damping stays within its limits", "statement": "Every lambda used by Solve lies in [min_lambda, max_lambda]; lambda and the optimizer state evolve as a two-state machine: success decreases lambda and returns to NOMINAL, line-search failure enters/keeps ATTEMPTING_RESTORE_LM and raises lambda.", "quantifier": "all runs with accepted params, exact and IEEE arithmetic", "why_tests_cant": "all histories", "anchors": ["source/nonlinear.cc:ConstrainedNonlinearLeastSquares::UpdateLambdaAndCheckExitConditions"]}
{"id": "C44", "title": "Penalty never decreases", "statement": "The logged penalty sequence is non-decreasing, starts at or above equality_penalty_initial, is constant without equality constraints, and dominates the multiplier-based value of each iteration. In binary64 the logged penalties are positive (possibly infinite, never NaN), at least equality_penalty_initial, non-decreasing, and constant without equality constraints.", "quantifier": "all runs", "why_tests_cant": "all histories", "anchors": ["source/nonlinear.cc:ConstrainedNonlinearLeastSquares::Solve", "source/nonlinear.cc:SelectPenalty"]}
{"id": "C45", "title": "Equality-only problems always get a descent direction", "statement": "When the null-space path is used and the equality violation is at least machine epsilon, the merit derivative used by the line search is <= 0, so POSITIVE_DERIVATIVE is never reported.", "quantifier": "all problems on the null-space path", "why_tests_cant": "all problem data", "anchors": ["source/nonlinear.cc:SelectPenalty", "source/nonlinear.cc:ComputeQPCostDerivative"]}
{"id": "C46", "title": "Termination states are truthful", "statement": "Each NLSTerminationState returned implies its documented condition on the last logged iteration: absolute tolerance on both errors, relative decrease, first-order tolerance, lambda above max, indefinite QP, callback returned false, or exactly max_iterations iterations logged.", "quantifier": "all runs, any arithmetic", "why_tests_cant": "all terminations", "anchors": ["source/nonlinear.cc:ConstrainedNonlinearLeastSquares::Solve", "source/nonlinear.cc:UpdateLambdaAndCheckExitConditions"]}
{"id": "C47", "title": "Iteration numbering and callback protocol", "statement": "Logged iterations are numbered 0,1,2,... and number at most max_iterations; the user callback is invoked exactly once per logged iteration, in order, with that iteration; its verdict is ignored when the solver itself exits.", "quantifier": "all runs and callbacks (also stateful ones)", "why_tests_cant": "all histories", "anchors": ["source/nonlinear.cc:ConstrainedNonlinearLeastSquares::Solve"]}
{"id": "C48", "title": "Non-recoverable line-search failures stall the solver", "statement": "After an iteration ending in FAILURE_INVALID_ALPHA or FAILURE_NON_FINITE_COST nothing changes: with deterministic residuals every following iteration repeats it verbatim until max_iterations (or until the callback stops the run or throws).", "quantifier": "all runs reaching such a failure", "why_tests_cant": "all histories; shows that more iterations never help", "anchors": ["source/nonlinear.cc:UpdateLambdaAndCheckExitConditions"]}
{"id": "C49", "title": "Bounds are respected across the nonlinear solve", "statement": "With the default retraction and a non-empty box, if the start satisfies every bound up to 1e-9 then so do the variables after every iteration; an infeasible start never becomes more infeasible than max(its violation, 1e-9).", "quantifier": "all problems and runs", "why_tests_cant": "all histories", "anchors": ["source/nonlinear.cc:ConstrainedNonlinearLeastSquares::Solve", "source/qp.cc:QPInteriorPointSolver::Solve"]}
{"id": "C50", "title": "Linear least squares converge in one step", "statement": "For affine residuals, no constraints, lambda=0 and positive definite J^T J, the first iteration accepts alpha=1 and the variables become the unique global minimiser.", "quantifier": "all affine problems", "why_tests_cant": "all problem data", "anchors": ["source/nonlinear.cc:ConstrainedNonlinearLeastSquares::Solve"]}
{"id": "C51", "title": "Nonlinear Solve is repeatable", "statement": "Calling Solve again on the same object with the same arguments gives the same outputs and variables as a fresh object, whatever was solved before.", "quantifier": "all histories", "why_tests_cant": "all histories", "anchors": ["source/nonlinear.cc:ConstrainedNonlinearLeastSquares::Solve"]}
{"id": "C52", "title": "NLS parameters are validated", "statement": "Solve throws before evaluating anything exactly when a parameter is outside its documented range (NaN included); an accepted parameter set does not by itself make Solve throw (false: equality_penalty_initial = 0, witness). In binary64 a NaN in any numeric parameter makes Solve throw an assertion.", "quantifier": "all parameter values", "why_tests_cant": "all doubles", "anchors": ["source/nonlinear.cc:CheckParams", "source/nonlinear.cc:SelectStepSize"]}
{"id": "C53", "title": "Start vector size", "statement": "A start vector whose size differs from the problem dimension is either rejected or handled; the code performs no check and with the default retraction adds vectors of different size (undefined behaviour) unless a residual or constraint index check throws first (witness).", "quantifier": "all problems and start vectors", "why_tests_cant": "all sizes", "anchors": ["source/nonlinear.cc:ConstrainedNonlinearLeastSquares::Solve", "source/nonlinear.cc:RetractCandidateVars"]}
{"id": "C54", "title": "Aggregate counters", "statement": "NumQPIterations, NumLineSearchSteps and NumFailedLineSearches are the sums over the log of their per-iteration counts (null-space iterations count 1), are additive over concatenated logs and failed searches never exceed logged iterations.", "quantifier": "all logs", "why_tests_cant": "all logs", "anchors": ["source/structs.cc:NLSSolverOutputs"]}
{"id": "C55", "title": "Enum names are unambiguous", "statement": "Streaming an enum value prints a name that identifies the value uniquely within its enum, and TerminationStateIndicatesSatisfiedTol is true exactly for the states whose printed name starts with SATISFIED_.", "quantifier": "all enum values (complete finite tables)", "why_tests_cant": "the tables are complete, not sampled", "anchors": ["source/structs.cc", "include/mini_opt/structs.hpp:TerminationStateIndicatesSatisfiedTol"]}
{"id": "C56", "title": "Colour changes only escape sequences", "statement": "ToString with colour enabled differs from the plain string only by inserted terminal escape sequences: removing them gives exactly the plain string.", "quantifier": "all iterations/outputs", "why_tests_cant": "all values", "anchors": ["source/structs.cc:ColorFmt", "source/structs.cc:NLSIteration::ToString"]}
{"id": "C57", "title": "JSON value round trip", "statement": "Converting NLSSolverOutputs to a JSON value and back yields the same object for every output.", "quantifier": "all outputs of any size", "why_tests_cant": "all outputs", "anchors": ["source/serialization.cc"]}
{"id": "C58", "title": "JSON text round trip", "statement": "Dumping to JSON text and parsing back yields the same outputs; false for interior-point logs because the NaN probe fields print as null and reading them throws (witness); true when all numbers are finite.", "quantifier": "all outputs", "why_tests_cant": "all outputs", "anchors": ["source/serialization.cc", "include/mini_opt/structs.hpp:IPIterationOutputs"]}
{"id": "C59", "title": "Unknown enum strings are not reported", "statement": "Reading JSON with an unknown enum string never fails but yields the first table entry; known strings decode to their own value.", "quantifier": "all JSON values", "why_tests_cant": "all strings", "anchors": ["source/serialization.cc:NLOHMANN_JSON_SERIALIZE_ENUM"]}
{"id": "C60", "title": "Trace buffer keeps the newest events", "statement": "After any interleaving of event submissions from any threads the collector holds exactly the last min(n,100000) submitted events in lock-acquisition order.", "quantifier": "all interleavings and event counts", "why_tests_cant": "all schedules", "anchors": ["source/tracing.cc:trace_collector::submit_event"]}
{"id": "C61", "title": "Trace buffer access is data-race free", "statement": "No two accesses to the event buffer from different threads overlap when one is a write; true among submit_event calls, false for get_trace_json, which takes no lock (witness schedule).", "quantifier": "all interleavings", "why_tests_cant": "all schedules", "anchors": ["source/tracing.cc:trace_collector::get_trace_json"]}
{"id": "C62", "title": "Trace output is valid JSON", "statement": "get_trace_json emits a well-formed JSON document whose traceEvents array lists the buffered events in order, for names without quote, backslash or control characters; a name with a quote breaks it (witness).", "quantifier": "all event lists and names", "why_tests_cant": "all strings", "anchors": ["source/tracing.cc:get_trace_json"]}
{"id": "C63", "title": "NaN never passes the exit tests silently", "statement": "With IEEE arithmetic a NaN dual residual never satisfies the QP exit test, and NLS SUCCESS is never reported for non-finite errors; a NaN in another residual slot is ignored by Max() (witness).", "quantifier": "all doubles including NaN", "why_tests_cant": "all doubles", "anchors": ["include/mini_opt/structs.hpp:KKTError::Max", "include/mini_opt/structs.hpp:Errors::ContainsInvalidValues"]}
{"id": "C64", "title": "The QP solver's exceptions are known", "statement": "With valid parameters, nonzero constraint slopes and a built-in initial guess (or a user guess with positive slacks and multipliers), interior point Solve either returns or throws FailedFactorization after the factorisation routine reported failure; no other assertion or undefined operation is reachable.", "quantifier": "all problems, parameters, starting solver states (exact arithmetic)", "why_tests_cant": "all runs of an iterative algorithm", "anchors": ["source/qp.cc:QPInteriorPointSolver::Solve", "source/qp.cc:ComputeInitialGuess", "source/qp.cc:Iterate"]}
{"id": "C65", "title": "The nonlinear solver's exceptions are known", "statement": "For a well-posed problem, nonzero bound slopes, documented parameters with positive initial penalty and a usable start vector, the nonlinear Solve returns, or throws FailedFactorization, or (null-space path only) asserts because every equality constraint is empty or runs into an undefined block product because the equality Jacobian lost rank, or passes on an exception of a residual, the retraction or the callback; nothing else can happen.", "quantifier": "all problems, parameters, start vectors and object histories (exact arithmetic)", "why_tests_cant": "all problems and iteration counts", "anchors": ["source/nonlinear.cc:ConstrainedNonlinearLeastSquares::Solve", "source/nonlinear.cc:ComputeStepDirection", "source/nonlinear.cc:SelectStepSize"]}
{"id": "C66", "title": "Missing JSON members", "statement": "Remove any one member, anywhere, from the JSON of a log. Reading the rest is undefined behaviour if it was a member of the log itself or of one of its iterations (operator[] of a const json), and throws out_of_range if it was a member of any other object in it; except that interior point outputs without their termination_state or iterations are silently read as a SUCCESS of the null-space solver.", "quantifier": "all logs of any size, all objects in them, all their members", "why_tests_cant": "all logs", "anchors": ["source/serialization.cc:from_json"]}
{"id": "C67", "title": "Unconstrained steps are Levenberg-Marquardt steps", "statement": "For a problem without constraints, whenever the damping is positive or the stacked Jacobian is injective at the current point, the step direction is the unique minimiser of the damped Gauss-Newton model 1/2 sum ||h + J dx||^2 + lambda/2 ||dx||^2; the logged directional derivative is minus its quadratic form, hence negative unless the step is zero, the step is zero exactly at stationary points of the cost, and FAILURE_POSITIVE_DERIVATIVE never occurs (exact arithmetic).", "quantifier": "all residuals, dimensions, start vectors, damping values, retractions and iterations", "why_tests_cant": "all nonlinear problems and points; tests compare a few final solutions", "anchors": ["source/nonlinear.cc:ConstrainedNonlinearLeastSquares::ComputeStepDirection", "source/nonlinear.cc:ConstrainedNonlinearLeastSquares::LinearizeAndFillQP"]}
{"id": "C68", "title": "Interior point steps from feasible points descend", "statement": "For an iteration solved with the interior point method at a point that satisfies the inequality constraints, the merit derivative used by the line search is at most minus the damped Gauss-Newton curvature along the step, plus the amount by which the QP solver missed the solution (duality gap and residual norms); if the QP reports SATISFIED_KKT_TOL that amount is at most M*1e-6 + tol*(|dx| + |z| + 2 sqrt(K) penalty). Hence FAILURE_POSITIVE_DERIVATIVE needs a curvature smaller than the amount missed (exact arithmetic).", "quantifier": "all problems with inequality constraints (with or without equality constraints), all iterations and histories, any linear solver behaviour", "why_tests_cant": "all nonlinear problems and iterates; tests look at final results of a few problems", "anchors": ["source/nonlinear.cc:ConstrainedNonlinearLeastSquares::ComputeStepDirection", "source/nonlinear.cc:ComputeQPCostDerivative", "source/nonlinear.cc:SelectPenalty"]}
{"id": "C69", "title": "What SATISFIED_FIRST_ORDER_TOL means for the result", "statement": "When Solve returns SATISFIED_FIRST_ORDER_TOL, the returned variables are approximately stationary: without constraints the squared derivative of the cost along any direction d is at most tol times the damped Gauss-Newton curvature along d; with equality constraints only, the violation is below tol and the same holds, with an explicit constant, for directions tangent to the constraints; with inequality constraints satisfied at the result, the cost decreases at most at an explicitly small rate along any displacement that keeps the inequality constraints satisfied and is tangent to the equality constraints (exact arithmetic).", "quantifier": "all problems, parameters, start vectors and histories that end with this status", "why_tests_cant": "a meaning of a reported status over all problems", "anchors": ["source/nonlinear.cc:ConstrainedNonlinearLeastSquares::SelectStepSize", "source/nonlinear.cc:ConstrainedNonlinearLeastSquares::Solve"]}
{"id": "C70", "title": "Poses compose, invert and act on points as rigid transforms", "statement": "Pose::operator* composes the actions on points, Pose::Inverse is a two-sided inverse, the 4x4 matrix of Pose acts and multiplies accordingly, and applying a pose is the rotation q v q* followed by the translation, provided the quaternions have norm one (exact arithmetic). A non-unit quaternion breaks Inverse (its rotation part is still the inverse quaternion of every non-zero one).", "quantifier": "all poses with unit quaternions and all points", "why_tests_cant": "a statement over all rotations and translations", "anchors": ["test/transform_chains.hpp:Pose"]}
{"id": "C71", "title": "The chain buffers are the partial products of the links", "statement": "After ComputeChain the frames i_R_end, i_t_end are the compositions of the links from i on, start_T_end is the composition of all links, and ComputeAllPoses returns for every i the composition of the first i links, i=0..n. For an empty chain start_T_end raises an assertion and ComputeAllPoses is undefined behaviour (exact arithmetic).", "quantifier": "chains of any length with unit quaternions", "why_tests_cant": "any chain length; tests use fixed chains", "anchors": ["test/transform_chains.hpp:ChainComputationBuffer", "test/transform_chains.cc:ComputeChain", "test/transform_chains.cc:ComputeAllPoses"]}
{"id": "C72", "title": "The chain Jacobians are the derivatives of the effector pose", "statement": "When the links of a chain depend differentiably on anything, the derivative of the effector's translation is the sum over links of translation_D_rotation and translation_D_translation applied to the links' velocities, and its angular velocity in the right tangent space is the sum of rotation_D_rotation applied to theirs (exact arithmetic).", "quantifier": "chains of any length, any differentiable dependence of the links on a vector of any dimension, any point", "why_tests_cant": "tests compare with numerical derivatives at a few configurations of one chain", "anchors": ["test/transform_chains.cc:ComputeChain"]}
{"id": "C73", "title": "ActuatorChain::Update computes the derivatives of the effector with respect to the parameters", "statement": "After Update(params) with the right number of parameters, translation() and rotation() are those of the chain with the active entries of the links replaced by the parameters, and translation_D_params and rotation_D_params have one column per parameter and are the derivatives of translation() and of rotation() (right tangent space) at params (exact arithmetic, given a correct SO3FromEulerAngles).", "quantifier": "all actuator chains, masks and parameter vectors", "why_tests_cant": "all masks and parameters; a test fixes one robot", "anchors": ["test/transform_chains.cc:ActuatorChain::Update", "test/transform_chains.cc:ActuatorLink::Compute"]}
{"id": "C74", "title": "Parameter layout, caching and misuse of ActuatorChain::Update", "statement": "Parameters are assigned to the active entries in order of links, rotations before translations. After any history of calls the reported results are those of a fresh chain at parameters within the tolerance 1e-9 of the ones given (in doubles this includes ignoring NaN). A wrong number of parameters raises an assertion the first time and is silently accepted when repeated. A chain without active entries never computes anything.", "quantifier": "all chains and all histories of Update calls, with wrong sizes in between", "why_tests_cant": "histories", "anchors": ["test/transform_chains.cc:ActuatorChain::ShouldUpdate", "test/transform_chains.cc:ActuatorChain::Update"]}
{"id": "C75", "title": "A constructed actuator link reproduces its pose", "statement": "When the ActuatorLink constructor accepts a pose and a mask, computing the link with its own parameters gives back the pose: the translation exactly, and the rotation exactly if no angle is active, otherwise every entry of the rotation matrix to within 1e-5. If the Euler decomposition does not reproduce the rotation the constructor raises an assertion.", "quantifier": "all poses, all masks, any Euler angle library", "why_tests_cant": "all masks", "anchors": ["test/transform_chains.hpp:ActuatorLink", "test/transform_chains.cc:ActuatorLink::Compute"]}
{"id": "C76", "title": "Accepted steps make bounded progress", "statement": "Every accepted step that does not end the solve reduces the merit function divided by the current penalty by the factor (1 - relative_exit_tol) and leaves max(f, equality) >= absolute_exit_tol; hence after s accepted steps absolute_exit_tol*min(1,1/penalty) <= (merit(x0)/penalty0)*(1-relative_exit_tol)^s, for any penalty history. Without equality constraints absolute_exit_tol <= cost(x0)*(1-relative_exit_tol)^s, and the predicted decreases alpha*|derivative| of all accepted steps sum to at most 10^4 times the total decrease of the cost (exact arithmetic). In binary64, without equality constraints: after s >= 1 accepted steps absolute_exit_tol <= f <= cost(x0)*(1-(relative_exit_tol-2^-51))^s.", "quantifier": "all problems, parameters, starts, histories and every logged iteration", "why_tests_cant": "a bound over all problems and run lengths", "anchors": ["source/nonlinear.cc:ConstrainedNonlinearLeastSquares::UpdateLambdaAndCheckExitConditions", "source/nonlinear.cc:ConstrainedNonlinearLeastSquares::SelectStepSize"]}
{"id": "C77", "title": "Consecutive failures are bounded by the damping limits", "statement": "After r+1 consecutive iterations whose line search failed (MAX_ITERATIONS or POSITIVE_DERIVATIVE) the damping is at least lambda_failure_init*10^r, so lambda_failure_init*10^r <= max_lambda if the solve goes on. With lambda_failure_init = 0 (accepted) and no damping, a failed iteration changes nothing (exact arithmetic). In binary64, for any user code: the factor is at least 8 per failure, so there are never more than 700 failures in a row when lambda_failure_init > 0 and the limits are finite.", "quantifier": "all runs and all windows of consecutive iterations", "why_tests_cant": "all histories", "anchors": ["source/nonlinear.cc:ConstrainedNonlinearLeastSquares::UpdateLambdaAndCheckExitConditions"]}
{"id": "C78", "title": "The nonlinear solver stops by itself", "statement": "If S accepted steps contradict C76 and R factors of ten contradict C77, a run in which no line search ends with FAILURE_INVALID_ALPHA logs at most S*(R+1) iterations. For a problem without equality constraints and positive relative_exit_tol, absolute_first_derivative_tol and lambda_failure_init there is a B, depending only on the problem, start and tolerances, such that no solve logs more than B iterations and MAX_ITERATIONS is reported only when max_iterations <= B (exact arithmetic). In binary64, without equality constraints, the same bound S*(R+1) with the constants of C76 and C77 in binary64, when no line search ends with FAILURE_INVALID_ALPHA or FAILURE_NON_FINITE_COST.", "quantifier": "all problems, parameters, starts; any max_iterations, callback, linear solver behaviour and earlier use of the solver object", "why_tests_cant": "termination for every problem and every iteration limit", "anchors": ["source/nonlinear.cc:ConstrainedNonlinearLeastSquares::Solve"]}
{"id": "C79", "title": "The printed reports are the documented format strings filled in with the record", "statement": "ToString of an interior point iteration, of a nonlinear iteration and of the solver outputs is exactly the library's format strings with the replacement fields {}, {:.16e}, {:.16f}, {:.10f} replaced from left to right by the recorded values (total cost = f + penalty * equality; line search steps numbered from 0; probe line only if mu_affine is not NaN; eigenvalue line only if recorded; QP iterations only if asked for and if the QP was an interior point solve). A successful search is printed in colour 112, any other in 160; the exit in 112 for the three satisfied tolerances, 160 for an indefinite QP and 202 otherwise. The text has one line for each of the six fixed entries, one per line search step, one for recorded eigenvalues, six or seven per printed QP iteration, and one final line.", "quantifier": "every recorded iteration and solver output, colour on or off, QP iterations included or not, every way of rendering a double (for the line count: without line breaks)", "why_tests_cant": "The text depends on lists of any length and on every combination of outcome, exit, colour and optional fields; tests print a few runs and do not compare the text.", "anchors": ["source/structs.cc:QPInteriorPointIteration::ToString", "source/structs.cc:NLSIteration::ToString", "source/structs.cc:NLSSolverOutputs::ToString", "source/structs.cc:ColorFmt", "source/structs.cc:ColorFromTerminationState"]}
{"id": "C80", "title": "A rejected call reports the first violated condition", "statement": "When parameters, a residual's indices or outputs, a constraint's variable, a problem for the null space solver or a nonlinear problem are rejected, the assertion that fires is that of the first of the documented conditions that does not hold, in the order in which the code checks them, and it fires exactly if one does not hold; after a failed UpdateHessian the caller still has the matrices it passed, with the same sizes.", "quantifier": "all parameter values (including non-comparable ones), all residuals, indices, parameter vectors and output sizes", "why_tests_cant": "There are many conditions and their failures can be combined arbitrarily; a test can only try a few combinations.", "anchors": ["source/nonlinear.cc:CheckParams", "source/qp.cc:CheckParams", "include/mini_opt/residual.hpp:GatherValues", "include/mini_opt/residual.hpp:UpdateHessian", "include/mini_opt/residual.hpp:UpdateJacobian", "include/mini_opt/qp.hpp:ShiftTo", "source/qp.cc:QPNullSpaceSolver::Setup"]}
{"id": "C81", "title": "An exception leaves the variables of the last complete iteration", "statement": "If Solve of the nonlinear solver, called with documented parameters, ends by an exception (an assertion, FailedFactorization, or an exception thrown by a residual, the retraction or the callback), variables() afterwards equals what Solve without callback leaves when max_iterations is k, for some k at most max_iterations: no half-finished step is visible. With undocumented parameters the object is unchanged. The same call on another object of the same problem, whatever its history, throws the same exception and leaves the same variables. Without equality constraints the cost at those variables is at most that of the start, and every bound holds as well as at the start, up to 1e-9.", "quantifier": "every problem, set of parameters, start, object history, and every point at which a residual, the retraction or the callback throws (any arithmetic for the first three; exact arithmetic for cost and bounds)", "why_tests_cant": "The exception can come from any evaluation of any residual at any point of any iteration; a test throws at a few of them.", "anchors": ["source/nonlinear.cc:ConstrainedNonlinearLeastSquares::Solve", "source/nonlinear.cc:UpdateLambdaAndCheckExitConditions", "source/nonlinear.cc:SelectStepSize", "include/mini_opt/nonlinear.hpp:variables"]}
{"id": "C82", "title": "The QP solution does not depend on the order in which constraints are listed, nor on naming", "statement": "Listing the inequality constraints of a QP in another order (with bounds that some point satisfies) makes QPInteriorPointSolver::Solve throw the same exception or return the same outputs and log, the same x and y, and the same s and z in the other order. For regular problems (see C24), renumbering the variables and the equality rows as well only renumbers the result whenever both calls return, and the result does not depend on which correct factorisation is used.", "quantifier": "all QPs, permutations of variables, equality rows and constraints, parameters, object histories and factorisations (exact arithmetic)", "why_tests_cant": "There are factorially many orders and infinitely many problems; a test compares a few.", "anchors": ["source/qp.cc:QPInteriorPointSolver::Solve", "source/qp.cc:ComputeInitialGuess", "include/mini_opt/qp.hpp:LinearInequalityConstraint::ClampX"]}
{"id": "C83", "title": "The nonlinear solver does not depend on the order of costs and bounds", "statement": "If Solve of the nonlinear solver returns, then Solve on the same problem with its costs and its bounds listed in any other order (bounds that some point satisfies), on any object with any history, returns the same outputs with the same log, shows the callback the same sequence of values, and leaves the same variables; and the other way round.", "quantifier": "every problem with consistent bounds, every permutation of costs and of bounds, every set of parameters, start and pair of object histories (exact arithmetic)", "why_tests_cant": "There are factorially many orders and infinitely many problems and trajectories; a test compares a few.", "anchors": ["source/nonlinear.cc:ConstrainedNonlinearLeastSquares::Solve", "source/nonlinear.cc:LinearizeAndFillQP", "source/nonlinear.cc:EvaluateNonlinearErrors", "source/qp.cc:QPInteriorPointSolver::Solve"]}
{"id": "C84", "title": "How the nonlinear solver runs its QP subproblems", "statement": "Every interior point run the nonlinear solver logs is a run on the QP linearised at the variables of that iteration: it takes between 1 and max_qp_iterations iterations, uses mu = 1 in the first and 0.1 s^T z / M in every later one, reports SATISFIED_KKT_TOL exactly when its last error is below termination_kkt_tolerance and s^T z / M < 1e-6, and its last x is the search direction. It starts at the point of the shifted box nearest to 0 when there are no equality constraints, and otherwise at the one nearest to the minimiser without the inequalities; if that minimiser violates no bound, every logged equality residual is 0 and the direction satisfies the linearised equality constraints exactly even when the QP is stopped early. Default-constructed parameters have the documented values.", "quantifier": "all problems, parameters, starts, histories and iterations of a run (exact arithmetic)", "why_tests_cant": "The QP is solved inside every iteration of every run; a test sees a few of them.", "anchors": ["source/nonlinear.cc:ComputeStepDirection", "include/mini_opt/nonlinear.hpp:Params", "include/mini_opt/qp.hpp:Params", "source/qp.cc:QPInteriorPointSolver::Solve"]}
{"id": "C85", "title": "Changing the problem after constructing the nonlinear solver", "statement": "The solver keeps a pointer to the caller's Problem and sizes its buffers when it is constructed: room for all equality rows and for the longest residual, no more. If the problem is changed afterwards: costs, inequalities and equality constraints may be replaced as long as the dimension and the total number of equality rows stay the same and no residual is longer than the longest one at construction, and linearising and evaluating are then what they are for a newly constructed solver. With a different dimension, or with more equality rows than at construction, every Solve that makes an iteration throws an assertion in its first linearisation. With fewer equality rows no check fails, but the QP gets equality rows that are identically zero, so the interior point solver factorises a singular matrix at every iterate and the null-space solver runs into undefined behaviour. With a longer residual the evaluation of the errors writes past the end of its buffer.", "quantifier": "for every original and changed problem, every start vector, every parameter set, and (except for the zero-row consequence, which is exact) every arithmetic", "why_tests_cant": "the sizes of the original and of the changed problem are arbitrary, and the undefined cases may pass unnoticed in a test", "anchors": ["source/nonlinear.cc: ConstrainedNonlinearLeastSquares::ConstrainedNonlinearLeastSquares", "source/nonlinear.cc: LinearizeAndFillQP", "source/nonlinear.cc: EvaluateNonlinearErrors"]}
{"id": "C86", "title": "Which user code the nonlinear solver calls, and when", "statement": "Solve calls the residuals, the custom retraction and the callback in a fixed order that does not depend on their side effects. In a solve that returns: per logged iteration every residual is called once with its Jacobian at the variables before the iteration (costs in order, then equality constraints in order); then per logged line-search step the custom retraction once with the current variables, the direction and that step length, and every residual once without Jacobian at the point it gave; then the callback once with the logged iteration. Nothing else is called, except that every residual is called once more with its Jacobian when the subproblem is found indefinite. So each residual is evaluated with Jacobian once per logged iteration (plus one for QP_INDEFINITE), at most max_iterations times, and without Jacobian once per logged line-search step, at most max_iterations * (max_line_search_iterations + 1) times. If user code throws, the call that threw is the last one. User code with side effects (counters, caches, logging) that gives the same answers gives the same result.", "quantifier": "for every problem, arithmetic, start, parameters, solver object and user code with side effects on any state whose answers are functions of the arguments (for the callback: of the iterations it was shown)", "why_tests_cant": "the number of iterations and line-search steps, the user's state and its effects are arbitrary", "anchors": ["source/nonlinear.cc: ConstrainedNonlinearLeastSquares::Solve", "source/nonlinear.cc: LinearizeAndFillQP", "source/nonlinear.cc: EvaluateNonlinearErrors", "source/nonlinear.cc: SelectStepSize", "source/nonlinear.cc: RetractCandidateVars", "include/mini_opt/residual.hpp: UpdateHessian", "include/mini_opt/residual.hpp: ErrorVector"]}
{"id": "C87", "title": "The log of a nonlinear solve is legal whatever the user code does", "statement": "Residuals, retraction and callback may be arbitrary programs whose answers change from call to call, to anything (another value, NaN, inconsistent Jacobians). If Solve returns, its log and termination state satisfy a grammar that mentions only the parameters and the logged fields: iterations are numbered; lambda and optimizer state follow the update rules from lambda_initial and NOMINAL; the penalty is the last one or the raised one (raised only with equality constraints, from the multipliers' norm when there are any) and is positive; the null-space solver is used exactly with equalities and no inequalities and its logged runs succeeded; each line search has between 1 and max_line_search_iterations + 1 trials, starts with step 1, follows the chosen strategy, refuses every trial but the last for the stated reasons, and the step result states what happened at the last trial; the run goes on after an iteration exactly when no stopping rule holds for it and the callback said so, and stops with the state of the rule that holds, USER_CALLBACK, MAX_ITERATIONS after exactly max_iterations iterations, or QP_INDEFINITE (null-space solver only). The callback got exactly the logged iterations and answered 'go on' to all but the last. The variables change only at successful iterations, to the retraction's answer (or the sum) for the last trial step. In exact arithmetic: lambda stays in [min_lambda, max_lambda], penalties never decrease, step lengths are in (0, 1], and the merit does not grow at a success. Solve leaves with a user exception only if user code threw one. In binary64: penalties never decrease, every step size is a finite double in [0,1] and not above the one before it, the merit does not grow at a success as a double, and lambda stays within finite limits.", "quantifier": "for every problem, arithmetic (reals for the last sentences), parameters, start, solver object, and every program of the user code on any state", "why_tests_cant": "the user code is any program; its answers over a whole solve cannot be enumerated", "anchors": ["source/nonlinear.cc:ConstrainedNonlinearLeastSquares::Solve", "source/nonlinear.cc:SelectStepSize", "source/nonlinear.cc:UpdateLambdaAndCheckExitConditions", "include/mini_opt/structs.hpp:NLSIteration"]}
{"id": "C88", "title": "Near a zero-residual solution the nonlinear solver converges quadratically", "statement": "A problem with costs only, solved without damping (lambda_initial = 0, the default) and with the default retraction: suppose all costs vanish at a point, and within a ball about it the stacked Jacobian stretches every vector by at least sigma, the residuals differ from their linear models by at most L/2 times the squared distance, and L times the radius is at most sigma/2. Then from every start in the ball: every iteration tries the full Gauss-Newton step and nothing else; it is accepted, and the new distance to the solution is at most L/(2 sigma) times the square of the old one, or the directional derivative is below its tolerance and the run ends there; after k iterations the distance is at most radius * (1/4)^(2^k - 1); damping is never switched on and MAX_LAMBDA, SATISFIED_RELATIVE_TOL (for relative_exit_tol <= 1/4) and QP_INDEFINITE are impossible; if the run ends by the absolute tolerance the result is within sqrt(2 tol) / (3/4 sigma) of the solution, if by the first-order tolerance within sqrt(tol) / (3/4 sigma); and it ends within m + 1 iterations once the bound on the cost after m + 1 steps is below absolute_exit_tol.", "quantifier": "for every problem size and residuals, every such ball, start within it, parameters without damping, and every LDLT that solves its system exactly", "why_tests_cant": "a rate over all starts in a ball and all residuals with the stated bounds; a test sees single trajectories", "anchors": ["source/nonlinear.cc:ConstrainedNonlinearLeastSquares::Solve", "source/nonlinear.cc:ComputeStepDirection", "source/nonlinear.cc:SelectStepSize", "source/nonlinear.cc:UpdateLambdaAndCheckExitConditions"]}
{"id": "C89", "title": "A QP solver object over its lifetime", "statement": "The solver keeps a pointer to the user's problem. After any history of calls on a new object (Setup with any problems or null, accepted or rejected; Solve with any parameters, returning or throwing; SetVariables; the user overwriting problems in memory), the object points to the problem of the last Setup with a non-null pointer, whether or not that call was rejected, and the user's problems are exactly what the user wrote. An object never given a non-null pointer throws 'Must have a valid problem' from Solve whatever the parameters. Setup(nullptr) throws and changes nothing. SetVariables with a vector of the size of the last Setup makes variables() that vector, and the accessors return its x, s, y, z parts in that order. After an accepted Setup with non-negative indices, whatever came before, any further solves, null Setups, writes of variables of the right size, and in-place changes of the problem that keep its sizes (and validity) are well defined, and Solve with a built-in guess then gives exactly what a solver newly constructed for the current contents would give. But a Setup that rejects a non-null problem leaves the object pointing to it: the next Solve with valid parameters does not refuse, it works on the rejected problem, which is undefined behaviour.", "quantifier": "for every history of calls of any length, all problems of any sizes, all parameters, any arithmetic and linear algebra", "why_tests_cant": "ranges over all call histories and interleavings with in-place changes of the problem", "anchors": ["source/qp.cc:QPInteriorPointSolver::Setup", "source/qp.cc:QPInteriorPointSolver::Solve", "source/qp.cc:QPInteriorPointSolver::SetVariables", "include/mini_opt/qp.hpp:QPInteriorPointSolver"]}
{"id": "C90", "title": "Infeasible and unbounded problems are not reported as solved", "statement": "If no point satisfies the constraints of a QP up to termination_kkt_tol, the interior point Solve never reports SATISFIED_KKT_TOL: if it returns it has made max_iterations iterations. With a Farkas certificate (weights w, v >= 0 in which the variables cancel and the constants sum to -delta) the residual norms logged after every iteration satisfy delta <= |w| r_eq + |v| r_ineq, however many iterations are made. With a direction that keeps all constraints and along which the objective falls at rate delta, every logged dual residual is at least delta/|d|, and SATISFIED_KKT_TOL is not reported for tolerances up to delta/|d|. In the nonlinear solver, bounds on one variable that exclude each other by more than the tolerance make every logged interior point run use up max_qp_iterations.", "quantifier": "all QPs, parameters, starts with positive slacks and multipliers, linear solver behaviour, iterations; all nonlinear problems, parameters, starts (exact arithmetic)", "why_tests_cant": "quantifies over all infeasible and unbounded problems and all iteration counts; a test shows one problem", "anchors": ["source/qp.cc: QPInteriorPointSolver::Solve", "source/nonlinear.cc: ComputeStepDirection", "include/mini_opt/qp.hpp"]}
{"id": "C91", "title": "Bounds are not enforced from a start that violates them", "statement": "Without equality constraints: if the gradient of the cost is zero at the start, a nonlinear Solve that returns stops in its first iteration with SATISFIED_FIRST_ORDER_TOL and the start unchanged, even if the start violates bounds. If every point that satisfies the bounds costs more than the start, the point returned violates a bound, whatever the termination state. (So a SATISFIED_ state is no evidence that the bounds hold, unless the start satisfies them: C49.)", "quantifier": "all problems without equality constraints, parameters, starts and solver objects (exact arithmetic)", "why_tests_cant": "a negative guarantee over all problems; tests start feasible", "anchors": ["source/nonlinear.cc: SelectStepSize", "source/nonlinear.cc: UpdateLambdaAndCheckExitConditions", "include/mini_opt/structs.hpp: NLSTerminationState"]}
{"id": "C92", "title": "Which scopes a trace records, and their nesting", "statement": "When code with traced scopes runs on a thread (with exceptions, handlers and destructors), the events submitted to the collector are exactly: one for every scope that is left normally, after the events of the scopes inside it; none for a scope left by an exception; none for scopes run by destructors while an exception unwinds the stack. This does not depend on the clock. If the clock never runs backwards, durations are not negative and of two events of one thread the one submitted first lies before the other or inside it; the printed microsecond intervals keep that up to one microsecond, and no better.", "quantifier": "every structured program of scopes, throws, handlers and destructors; every clock; every process and thread id; every nesting depth", "why_tests_cant": "the rule concerns every control flow through nested scopes, including stack unwinding, and every sequence of clock readings", "anchors": ["include/mini_opt/tracing.hpp:scoped_trace", "include/mini_opt/tracing.hpp:MINI_OPT_SCOPED_TRACE_STR", "include/mini_opt/tracing.hpp:scoped_trace", "include/mini_opt/tracing.hpp:MINI_OPT_SCOPED_TRACE_STR"]}
{"id": "C93", "title": "The trace of a solve is determined by its log", "statement": "A nonlinear solve that returns adds to the trace, on its thread, exactly the events that can be read off its outputs: for each logged iteration one LinearizeAndFillQP, one ComputeStepDirection, one ComputeQPCostDerivative, one EvaluateNonlinearErrors per logged line search step and one SelectStepSize, in that order; one further LinearizeAndFillQP and ComputeStepDirection if and only if it terminated with QP_INDEFINITE; then one Solve. The number of events is 1 + 4 iterations + line search steps (+ 2). A solve that throws records no Solve event: what it adds are the events of the iterations it completed - those logged by a solve with that many max_iterations - followed by a beginning of the events of one iteration, in which the scope that threw is missing; with invalid parameters it adds nothing.", "quantifier": "every problem, user code without scopes of its own, parameters, starting point, previous state of the object, clock, number type", "why_tests_cant": "the traced control flow depends on the problem, the line search and every way a solve can end", "anchors": ["source/nonlinear.cc:ConstrainedNonlinearLeastSquares::Solve", "source/nonlinear.cc:ConstrainedNonlinearLeastSquares::LinearizeAndFillQP", "source/nonlinear.cc:ConstrainedNonlinearLeastSquares::ComputeStepDirection", "source/nonlinear.cc:ConstrainedNonlinearLeastSquares::EvaluateNonlinearErrors", "source/nonlinear.cc:ConstrainedNonlinearLeastSquares::SelectStepSize", "source/nonlinear.cc:ConstrainedNonlinearLeastSquares::ComputeQPCostDerivative", "include/mini_opt/tracing.hpp: MINI_OPT_FUNCTION_TRACE"]}
{"id": "C94", "title": "The random test problems have the solution they claim", "statement": "GenerateRandomPDMatrix returns a diagonal matrix for every sequence of draws (the upper triangle it accumulates is overwritten by the zero lower one); it is positive definite exactly when no coordinate draws only zeros. Because it is diagonal, the solution returned by GenerateRandomQP is feasible, makes every generated constraint active and is the unique minimiser, for all roots, draws, choices of constrained variables and scales in [0,1]; with a positive definite matrix that is not diagonal this fails (witness). EXPECT_EIGEN_NEAR never accepts NaN entries or equal infinities, and accepts everything else if the tolerance is NaN.", "quantifier": "all dimensions, all draws, roots, masks and scales (exact arithmetic); all doubles for the comparison", "why_tests_cant": "it is a statement about the test oracle itself, for every random seed and dimension", "anchors": ["test/test_utils.cc: GenerateRandomPDMatrix", "test/qp_test.cc:BuildQuadratic", "test/qp_test.cc:BuildQuadraticVector", "test/qp_test.cc:GenerateRandomQP", "test/test_utils.hpp: expect_eigen_near"]}
{"id": "C95", "title": "Effect of one interior point iteration on the dual residual and the duality gap", "statement": "For a regular QP and an exact linear solver, every logged iteration changes the gradient of the Lagrangian by exactly: new = (1 - alpha.dual) * old + (alpha.primal - alpha.dual)/alpha.primal * G (x' - x). Hence with equal step lengths (or a step flat for G, e.g. a linear objective) the logged r_dual shrinks by exactly 1 - alpha.dual; an iteration logging step lengths 1 and 1 ends with r_dual = 0, and after one logging a primal step of 1 both primal residuals are 0 for the rest of the run. For a convex objective, whenever an iteration ends with zero residuals, the x it ends with is feasible and within s.z of the best feasible objective. Without predictor-corrector an iteration with zero residuals and equal step lengths a moves s.z to (1 - a) s.z + a M mu + (x'-x)^T G (x'-x). In general the dual residual is NOT monotone: it can go from exactly zero to nonzero in one iteration.", "quantifier": "all regular QPs of any size, parameters, starting states, initial guesses and iterations of the run", "why_tests_cant": "A test looks at the residuals of particular runs; the identity is about every iteration of every run, and the failure of monotonicity needs unequal step lengths that tests rarely examine.", "anchors": ["source/qp.cc:QPInteriorPointSolver::Iterate", "source/qp.cc:QPInteriorPointSolver::SolveForUpdate", "source/qp.cc:QPInteriorPointSolver::ComputeAlpha", "source/qp.cc:QPInteriorPointSolver::ComputeErrors"]}
{"id": "C96", "title": "What smoothness of the cost guarantees (global convergence rate)", "statement": "A problem with costs only and the default retraction, exact arithmetic, absolute_first_derivative_tol > 0. Suppose that where the cost is not above that of the start, it lies below its quadratic models of curvature L (true if its gradient is Lipschitz with constant L), and that the Gauss-Newton matrix damped with min_lambda is at least mu there (true with mu = min_lambda if that is positive). Then: every refused trial step is longer than 1.9998 mu/L; every iteration succeeds, is stationary to first order, or exhausts its line search, and the latter needs 1.9998 mu < L * ratio^max_line_search_iterations (ratio = armijo_search_tau, or 0.51 for the polynomial strategy); accepted steps are at least min(1, tau * 1.9998 mu/L) resp. min(1, (20/41) mu/L) long; the slopes |d_f| of the accepted steps sum to at most 10^4/that length times the decrease of the cost; the number of iterations is at most S*(R+1), resp. S if line searches cannot be exhausted, for S > 10^4 cost(x0)/(length * absolute_first_derivative_tol), and in the latter case Solve with max_iterations > S ends by a tolerance or the callback; MAX_LAMBDA is impossible if max_lambda >= max(lambda_failure_init, 5.0006 L), and lambda never exceeds max(lambda_initial, lambda_failure_init, 5.0006 L); and at each logged iteration the squared derivative of the cost along any direction is at most |d_f| times the damped curvature along it.", "quantifier": "all smooth problems of any size, starts, parameters, solver histories, callbacks", "why_tests_cant": "a worst-case complexity bound over all smooth functions and runs of any length", "anchors": ["source/nonlinear.cc:ConstrainedNonlinearLeastSquares::Solve", "source/nonlinear.cc:ConstrainedNonlinearLeastSquares::SelectStepSize", "source/nonlinear.cc:ConstrainedNonlinearLeastSquares::UpdateLambdaAndCheckExitConditions", "source/nonlinear.cc:ConstrainedNonlinearLeastSquares::ComputeQPCostDerivative"]}
{"id": "C97", "title": "Linear least squares with damping converge linearly, and superlinearly as the damping decays", "statement": "For affine residuals, no constraints, default retraction and J^T J >= m > 0, whatever the damping parameters: no line search ever fails, every iteration tries exactly the full step and accepts it (except that the last may stop with SATISFIED_FIRST_ORDER_TOL); the damping of iteration k is max(lambda_initial*lambda_decrease_on_success^k, min_lambda, 0) and MAX_LAMBDA is never reported; each accepted iteration multiplies the distance to the unique minimiser by at most lambda/(m+lambda) and the distance of the cost from its minimum by at most the square of that. SATISFIED_FIRST_ORDER_TOL means a cost within tol*(m+lambda)/(2m) of the minimum, and SATISFIED_RELATIVE_TOL a correspondingly small gap (exact arithmetic).", "quantifier": "all affine problems, dimensions, start vectors, parameters, iteration limits and histories of the solver object", "why_tests_cant": "a statement about the rate over all problems, parameters and numbers of iterations", "anchors": ["source/nonlinear.cc:ConstrainedNonlinearLeastSquares::Solve", "source/nonlinear.cc:ConstrainedNonlinearLeastSquares::UpdateLambdaAndCheckExitConditions", "source/nonlinear.cc:ConstrainedNonlinearLeastSquares::ComputeStepDirection", "source/nonlinear.cc:ConstrainedNonlinearLeastSquares::SelectStepSize", "include/mini_opt/residual.hpp: UpdateHessian"]}
{"id": "C98", "title": "Linear least squares with linear equality constraints", "statement": "For affine costs, affine equality constraints, no inequality constraints, the default retraction and no damping (exact arithmetic): every iteration aims at the one point of least cost among those that satisfy the constraints; a trial step of length alpha multiplies the constraint violation by exactly 1 - alpha and its cost lies on the parabola with the logged slope; an accepted step goes the fraction alpha of the way to that point. If the constraints hold at the start of an iteration, or are violated by at least machine epsilon and the curvature along the step is at most 19998 * rho * penalty * violation, only the full step is tried and it reaches the best feasible point (or the iteration stops with FIRST_ORDER_SATISFIED). Otherwise, as long as the violation is at least machine epsilon and one line-search retry is allowed, the first or second trial is accepted, and at least half of the way (polynomial strategy; armijo_search_tau of the way for Armijo with tau <= 0.9999) is made: after k iterations the iterate is at most (1/2)^k of the way from the best feasible point to the start. From a feasible start Solve returns the best feasible point after its first iteration, or stops at the start with SATISFIED_FIRST_ORDER_TOL. The full step CAN be refused: with the default parameters the first iteration on costs 100 x0 - 50.007, x1 - 1 with x0 = 0 from (1, 1) takes two trials and leaves at least a quarter of the violation.", "quantifier": "all affine problems of any size, starts, parameters, iteration limits, callbacks and histories of the solver object", "why_tests_cant": "A test solves particular problems; the claim is about every linear problem, every start and every iteration, and the refused full step needs cost and constraint scales that tests do not try.", "anchors": ["source/nonlinear.cc:ConstrainedNonlinearLeastSquares::Solve", "source/nonlinear.cc:ConstrainedNonlinearLeastSquares::SelectStepSize", "source/nonlinear.cc:ConstrainedNonlinearLeastSquares::SelectPenalty", "source/qp.cc:QPNullSpaceSolver::Solve"]}
{"id": "C99", "title": "What the assertion macros do and what their messages say", "statement": "F_ASSERT does nothing exactly if its condition holds, evaluates it once, and otherwise throws assert::default_error whose message is 'Assertion failed: <condition>\\nFile: <file>\\nLine: <line>', followed by '\\nReason: <reason>' if one was given. The comparison macros (EQ, NE, LT, GT, LE, GE) add a line with the text and value of both operands. The message determines the condition, the file and the line (none of which contains a line break). A reason without braces is appended verbatim; one that fmt cannot format loses the message and throws fmt's exception; all reasons used by the library can be formatted. With operands without side effects, a comparison macro throws exactly if the comparison is false and the message shows values for which it is false; operands with side effects are evaluated a second time when the assertion fails, and the message shows the second values, which may satisfy the comparison. A NaN operand makes every comparison macro throw except NE, which accepts it. what() is the message up to the first NUL.", "quantifier": "all conditions, operand expressions with any side effects on any state, evaluation orders, files, lines, reasons and arguments", "why_tests_cant": "ranges over all texts and all operand expressions; a test sees the messages of the assertions it triggers", "anchors": ["include/mini_opt/assertions.hpp:format_assert", "include/mini_opt/assertions.hpp:format_assert_binary", "include/mini_opt/assertions.hpp:default_error", "include/mini_opt/assertions.hpp:F_ASSERT_EQ"]}
{"id": "C100", "title": "The JSON text the library writes can be read in one way only", "statement": "By the grammar of RFC 8259 a text denotes at most one JSON value. So whoever reads the text of get_trace_json by that grammar reads exactly the recorded events (for names without quotes, backslashes or control characters), and equal texts come from events that agree in name, start, process, thread and duration in whole microseconds. The outputs of every solve can be written as JSON text; and if they are, with members in any order, any white space, any escaping of strings and any way of writing doubles that loses nothing, then whatever value is read from the text by the rules of JSON, the library's reader makes the same outputs of it when all doubles in them are finite, and throws a type error otherwise. The reader does not depend on the order of members.", "quantifier": "all texts; all lists of trace events; all outputs of any length; every order of members, white space, escaping and lossless rendering of doubles", "why_tests_cant": "ranges over all texts and all ways of writing them", "anchors": ["source/tracing.cc:trace_collector::get_trace_json", "source/serialization.cc:to_json", "source/serialization.cc:from_json"]}
{"id": "C101", "title": "A nonlinear solve does not depend on the coordinates the problem is written in", "statement": "Take a problem without inequality constraints and the same problem written in other coordinates x = T(y): residual values agree (the residuals may be listed in another order), Jacobians follow the chain rule with an invertible A(y), and retracting in y then mapping is mapping then retracting. If both solves return from corresponding starts, and either A preserves the length of steps or no iteration is damped (and, without constraints, the damping is positive or the Jacobian has full rank at the iterates), they return the same termination state and the same log (apart from the QP solver's own outputs and eigenvalues), call the callback alike, and the final point is the image under T. In particular any linear change of variables x = B y + t with the default retraction (units, rotation, origin, preconditioning) and, with or without damping, any renumbering of the variables. With damping the units do matter: on (x-3)^2+(y-1)^2 one damped iteration from 0 gives x = 2, in doubled units x > 2.6. If the first solve returns, so does the second, unless user code throws in it or its factorisation routine reports failure.", "quantifier": "all problems without inequality constraints, all smooth or non-smooth changes of coordinates with invertible step maps, all retractions commuting with them, all parameters, starts and iteration counts (exact arithmetic, Eigen contracts)", "why_tests_cant": "ranges over all problems and all reparametrisations", "anchors": ["source/nonlinear.cc:ConstrainedNonlinearLeastSquares::Solve", "source/nonlinear.cc:ConstrainedNonlinearLeastSquares::LinearizeAndFillQP", "source/nonlinear.cc:ConstrainedNonlinearLeastSquares::SelectStepSize", "include/mini_opt/nonlinear.hpp:Retraction"]}
{"id": "C102", "title": "What SATISFIED_KKT_TOL means for the exact problem when the solver runs in doubles", "statement": "Every operation rounded to double, sums added by Eigen in any order, any linear solver: if Solve reports SATISFIED_KKT_TOL, the tolerances are finite and no logged norm is NaN, then the returned x, s, y, z are finite, and the gradient of the Lagrangian, the equality residuals and the slack residuals of the exact problem (the doubles read as real numbers, exact arithmetic) have Euclidean norms at most termination_kkt_tol plus the accumulated rounding errors of their terms (at most 2n units of roundoff of the magnitudes for n operations, plus underflow). With s, z >= 0 the exact complementarity products add up to at most M * complementarity_tol up to rounding, every exact constraint is violated by at most the tolerance plus rounding, and for a convex problem the exact objective exceeds that of any feasible point by at most what the tolerances and rounding allow. (The complementarity norm itself can cancel: s z = 1 + 2^-27, mu = 1 is logged as exactly 0.)", "quantifier": "all QPs in doubles, all dimensions, all parameters, all linear solvers, all summation orders, all feasible comparison points", "why_tests_cant": "ranges over all problems and roundings; a test sees one summation order", "anchors": ["source/qp.cc:QPInteriorPointSolver::Solve", "source/qp.cc:QPInteriorPointSolver::EvaluateKKTConditions", "source/qp.cc:QPInteriorPointSolver::ComputeErrors"]}
{"id": "C103", "title": "Logged costs are the exact costs up to rounding", "statement": "In doubles, with sums in any order: every logged cost that is finite - initial, and at every line search candidate - differs from 1/2 sum ||r||^2 of the returned residual values in exact arithmetic by at most the rounding error of a number of operations linear in the number of values; every logged constraint violation from the exact sum ||e||_1 by a relative error of that kind. After SATISFIED_ABSOLUTE_TOL the exact cost and violation at the returned point are below the tolerance up to rounding, and all residual values there are finite. An accepted step does not increase the exact merit function except by rounding.", "quantifier": "all problems and residual values in doubles, all parameters, starts and summation orders, all iterations", "why_tests_cant": "ranges over all residual values and summation orders", "anchors": ["source/nonlinear.cc:ConstrainedNonlinearLeastSquares::EvaluateNonlinearErrors", "source/nonlinear.cc:ConstrainedNonlinearLeastSquares::Solve", "include/mini_opt/residual.hpp:ResidualBase::QuadraticError"]}
{"id": "C104", "title": "The Gauss-Newton problem in doubles is the exact one up to rounding", "statement": "In IEEE binary64, for residuals that read no parameter twice: after UpdateHessian every finite entry of H on or below the diagonal differs from the exact H + J^T J by at most the rounding errors of dim products and additions (in terms of the magnitudes added), entries above the diagonal are untouched, and the same holds for b + J^T r and the returned 1/2||r||^2. Hence the QP a nonlinear iteration linearises has G = sum J^T J + lambda I and c = sum J^T r up to such errors, exact copies of the equality residuals and Jacobians, and bounds shifted with two roundings. If the interior point solve of an iteration reports SATISFIED_KKT_TOL, its data are finite and the step satisfies the stationarity condition of the exact damped Gauss-Newton problem (the one built from the doubles the residuals return, in exact arithmetic) up to termination_kkt_tol and explicitly bounded rounding errors.", "quantifier": "all residuals, Jacobians, indices and variables in doubles, all problem sizes, all summation orders of Eigen's reductions, all damping values, all logged iterations", "why_tests_cant": "The claim bounds the effect of rounding for all inputs of any size and any summation order; a test sees only the numbers it tries, and compares doubles with doubles.", "anchors": ["include/mini_opt/residual.hpp:Residual::UpdateHessian", "include/mini_opt/residual.hpp:Residual::UpdateJacobian", "source/nonlinear.cc:LinearizeAndFillQP", "source/nonlinear.cc:ComputeStepDirection", "include/mini_opt/qp.hpp:LinearInequalityConstraint::ShiftTo"]}
{"id": "C105", "title": "Linear solves that are not exact", "statement": "Whatever matrix X the LDLT factorisation yields for the reduced matrix H, each logged interior point iteration moves along a direction that satisfies the slack and complementarity equations of the full Newton system exactly and the dual and equality equations up to w - H X w, w being the right-hand side of the reduced system. So the slack residual shrinks by (1 - alpha_primal) as with an exact solve, and the equality and dual residuals of the next iterate are those of an exact solve plus the step length times that error; if an equality row is never missed by more than eta, its violation is at most the initial one shrunk as with an exact solve plus eta. Without inequality constraints the iterations are an iterative refinement: if the linear solver is right up to a relative error eps on the KKT matrix, every iteration multiplies the residual of the optimality conditions by at most eps, and Solve returns SATISFIED_KKT_TOL after at most n iterations as soon as eps^n times the initial residual is below termination_kkt_tol and n <= max_iterations.", "quantifier": "all problems and sizes, all parameters and barrier strategies, all initial guesses with positive s and z, all behaviours of the factorisation (no accuracy assumed, or any relative error eps), all iterations of all runs", "why_tests_cant": "A test runs one Eigen build on some matrices; the claim is about whatever error the factorisation makes, and about all iterations of all runs.", "anchors": ["source/qp.cc:QPInteriorPointSolver::Iterate", "source/qp.cc:QPInteriorPointSolver::ComputeLDLT", "source/qp.cc:QPInteriorPointSolver::SolveForUpdate", "source/qp.cc:QPInteriorPointSolver::Solve"]}
{"id": "C106", "title": "Slopes and the first-order exit in doubles", "statement": "In binary64 arithmetic, with Eigen's sums in any order: the derivative of the cost along the step that an iteration logs (d_f), when finite, equals the exact slope of the cost at the current variables along the step up to explicitly bounded rounding errors. On a problem without constraints, in every iteration whose QP is reported as SATISFIED_KKT_TOL, the exact slope along the step is minus the exact Gauss-Newton curvature along it up to (tolerance + rounding errors) times the length of the step. If moreover the run ends with SATISFIED_FIRST_ORDER_TOL, the returned variables are stationary for the exact cost: along every direction d the exact slope is at most sqrt(kappa(d) * delta) + eps * |d|, with kappa the exact Gauss-Newton curvature, eps the stationarity error of the last step, and delta the first-derivative tolerance plus the rounding errors of the last step.", "quantifier": "all problems and sizes, all residual code, all parameters with finite tolerances, all starting points, all summation orders, all linear solvers, all iterations of all runs, all directions", "why_tests_cant": "The bound ranges over all directions and all inputs, and relates what is computed to exact values that a program in doubles cannot compute.", "anchors": ["source/nonlinear.cc:ConstrainedNonlinearLeastSquares::Solve", "source/nonlinear.cc:ConstrainedNonlinearLeastSquares::ComputeQPCostDerivative", "source/nonlinear.cc:ConstrainedNonlinearLeastSquares::LinearizeAndFillQP", "include/mini_opt/structs.hpp:DirectionalDerivatives"]}
{"id": "C107", "title": "Signs of slacks and multipliers along a whole run in doubles", "statement": "A QP solve in binary64 arithmetic, with sums in any order and any linear solver however inaccurate, whose final slacks and multipliers are finite and none of whose logged step lengths underflowed (is below 2^-1022), returns slacks and inequality multipliers that are not negative (with USER_PROVIDED: if the user's multipliers were not). If moreover it reports SATISFIED_KKT_TOL with no NaN in the final norms, the returned point violates no inequality or equality of the exact problem by more than the tolerance plus rounding errors, the exact complementarity sum is within tolerance, and for a convex exact problem the exact objective exceeds that of any feasible point by no more than the tolerances allow. If a step length does underflow, a slack can become negative.", "quantifier": "all problems and sizes (the optimality bounds: up to 2^53 inequalities), all parameters, all states, all linear solvers, all summation orders, all iteration counts", "why_tests_cant": "The claim covers every rounding pattern of every run; the failing case needs a quotient near the bottom of the double range that no test would produce.", "anchors": ["source/qp.cc:QPInteriorPointSolver::ComputeAlpha", "source/qp.cc:QPInteriorPointSolver::Iterate", "source/qp.cc:QPInteriorPointSolver::Solve", "source/qp.cc:QPInteriorPointSolver::ComputeInitialGuess"]}
{"id": "C108", "title": "Bounds on the variables in doubles", "statement": "In binary64 arithmetic, with additive retraction, any residuals, any summation order and any linear solver: an iteration of the nonlinear solver that moves the variables, and whose QP the log shows to have been solved cleanly (SATISFIED_KKT_TOL, no NaN norm, no step length that underflowed), leaves the exact value of every bound a*x+b at no less than (1-alpha) times its previous exact value minus alpha times (QP tolerance + explicitly bounded rounding errors of setting up and testing the bound) minus the rounding error of moving the variables. Over a whole run with finite returned variables, a bound that initially holds up to e1 holds at the end up to e1 + k*e2, where e1 and e2 bound these errors and k is the number of iterations; e1 is the tolerance up to 14 units of roundoff of the numbers involved, e2 is 6 units of roundoff.", "quantifier": "all problems, sizes and bounds, all residual code, all parameters with finite QP tolerance, all starting points, all summation orders, all linear solvers, all iterations of all runs", "why_tests_cant": "A bound on the accumulated violation over every run and every rounding pattern; the exact values it speaks about are not computable in doubles.", "anchors": ["source/nonlinear.cc:ConstrainedNonlinearLeastSquares::Solve", "source/nonlinear.cc:ConstrainedNonlinearLeastSquares::LinearizeAndFillQP", "source/nonlinear.cc:ConstrainedNonlinearLeastSquares::ComputeStepDirection", "include/mini_opt/qp.hpp:LinearInequalityConstraint::ShiftTo", "source/qp.cc:QPInteriorPointSolver::EvaluateKKTConditions"]}
{"id": "C109", "title": "Which exceptions the solvers can throw in doubles", "statement": "In binary64 arithmetic, whatever numbers the residuals, the retraction and the linear solver produce (NaN and infinities included): with valid parameters, slopes that are not zero and positive initial slacks, the interior point Solve returns, throws FailedFactorization after the factorisation routine reported failure, or throws the assertion 'Some slack variables s <= 0', and then the state left behind has a slack that was positive before the last step and that was infinite, below 2^-1000, or changed by NaN, infinity or more than 2^1000 times itself. The nonlinear Solve with indices in range, consistent residuals and documented parameters returns, or throws one of these two, or (null-space path) hits the empty-constraints assertion or the undefined product because there are more rows than variables or the computed rank is not full, or throws '!errors_pre.ContainsInvalidValues()' because the cost or the violation at the start is not finite, or passes on an exception of the user's code. Overflow does reach both assertions (witnesses with finite data).", "quantifier": "all problems, sizes, parameters, starting points and states, all residual functions and linear solvers including ones returning NaN or infinity, all summation orders, all iterations", "why_tests_cant": "The claim excludes every other assertion (polynomial line search, penalty, logged step) and every other undefined behaviour over all rounding, overflow and NaN patterns.", "anchors": ["source/qp.cc:QPInteriorPointSolver::Solve", "source/qp.cc:QPInteriorPointSolver::ComputeLDLT", "source/qp.cc:QPInteriorPointSolver::ComputeAlpha", "source/nonlinear.cc:ConstrainedNonlinearLeastSquares::Solve", "source/nonlinear.cc:ConstrainedNonlinearLeastSquares::SelectStepSize", "source/nonlinear.cc:CubicApproxCoeffs"]}
{"id": "C110", "title": "Full steps and curved equality constraints", "statement": "Affine costs, equality constraints of any shape, no inequality constraints, default retraction, no damping (exact arithmetic): an iteration that starts where the constraints hold and is not stopped by the first-derivative tolerance aims at the one point of least cost among those satisfying the linearized constraints, and accepts its full step if and only if the penalty times the constraint violation at that point is at most 0.9998 times the decrease of the cost. So full steps can be refused arbitrarily close to a solution of a zero-residual problem: for the costs x, y and the constraint K (x + y^2) = 0 (all zero at the origin), from every point of the curve the first step squares the distance to the solution if penalty * K <= 0.4999, whereas if penalty * K >= 1 and |y| <= 1/2 the full step is refused and at least 0.49 of the distance is left; with the default parameters and K = 1 the latter happens for every |y| between 10^-3 and 1/2. For every choice of parameters, two equivalent scalings of this constraint lie on either side.", "quantifier": "all problems of the stated kind, sizes, starts, parameters, iterations and histories; all points of the curve and all scalings in the example", "why_tests_cant": "The equivalence ranges over every problem and iteration, and 'however close' over infinitely many starting points.", "anchors": ["source/nonlinear.cc:ConstrainedNonlinearLeastSquares::SelectStepSize", "source/nonlinear.cc:ConstrainedNonlinearLeastSquares::SelectPenalty", "source/qp.cc:QPNullSpaceSolver::Solve"]}
{"id": "C111", "title": "When the interior point solver's factorisation fails", "statement": "With the pivoted LDLT algorithm of Eigen in place of an abstract factorisation (exact arithmetic): whenever it reports success on a symmetric matrix, its solve returns a solution of every system that has one, singular or not, and the inverse if the matrix is nonsingular. On a nonsingular matrix [B A^T; A 0] with B positive semidefinite it reports success if and only if B is positive definite. Hence, for a convex QP whose linearised systems are nonsingular and whose inequality coefficients are nonzero, with the naive guess or a positive user guess, Solve returns if and only if every nonzero direction has positive curvature in G or changes some inequality constraint, and otherwise throws FailedFactorization; equality constraints do not count. With the SOLVE_EQUALITY_CONSTRAINED guess and a unique equality constrained minimiser, Solve returns if and only if G is positive definite. So 'minimise 0 subject to x = 1' throws. For a singular G the outcome depends on the units: 1/2 (x0 + x1)^2 + 1/2 s x2^2 returns if s > 1 and throws if 0 < s <= 1.", "quantifier": "all sizes, convex QPs of the stated kind, valid parameters, states left over from earlier calls, right hand sides; all symmetric matrices for the first claim; all s > 0 in the example", "why_tests_cant": "The equivalence ranges over all matrices and every iteration of every solve.", "anchors": ["source/qp.cc:QPInteriorPointSolver::ComputeLDLT", "source/qp.cc:QPInteriorPointSolver::Solve", "source/qp.cc:QPInteriorPointSolver::ComputeInitialGuess"]}
{"id": "C112", "title": "Nonlinear problems on which Solve throws or cannot throw", "statement": "Nonlinear solve in the interior point path with the pivoted LDLT algorithm of Eigen (exact arithmetic, valid parameters with a positive initial penalty, nonzero bound coefficients, functions that do not fail): if the equality Jacobian has full row rank wherever it is evaluated and either min_lambda is positive, or in every linearisation every direction is seen by the costs (or by a bound, when there are no equality constraints), then Solve returns. If there are equality constraints and at least one bound, lambda is zero and at the starting point some direction changes no cost to first order although the linearised equality constrained problem has exactly one solution, then the first iteration throws FailedFactorization, whatever the bounds. So for the cost x0 - 3 and the equality x1 = 1 Solve returns; adding the inactive bound x0 >= 0 makes it throw from every starting point; with min_lambda > 0 it returns again.", "quantifier": "all problems, sizes, starting points, parameters and user callbacks of the stated kind; every starting point in the example", "why_tests_cant": "Never throwing is a statement about every iteration of every run.", "anchors": ["source/nonlinear.cc:ConstrainedNonlinearLeastSquares::Solve", "source/nonlinear.cc:ConstrainedNonlinearLeastSquares::ComputeStepDirection", "source/qp.cc:QPInteriorPointSolver::ComputeLDLT"]}
{"id": "C113", "title": "The null-space solver with Eigen's factorisations", "statement": "With the algorithms of Eigen (column-pivoting Householder QR, triangular solve, Cholesky) in place of abstract functions (exact arithmetic, rank thresholds with machine epsilon eps): without thresholds they meet every assumption the other properties make about them. With thresholds, if QPNullSpaceSolver::Solve returns then the constraint rows are independent, SUCCESS means that the result is the only minimiser subject to the constraints, and NOT_POSITIVE_DEFINITE that there is none. It returns whenever each of the K rows keeps a distance of K*eps times the longest row from the span of the others. It is undefined behaviour whenever some row is at most K*eps times as long as another, independent or not; for mutually orthogonal rows these two cases are the only ones. So for the constraints x0 = 1 and s (x1 - 1) = 0, Solve works if and only if 2 eps < |s| < 1/(2 eps).", "quantifier": "all sizes, matrices, problems, thresholds eps >= 0 and previous states; all s in the example", "why_tests_cant": "The statements are about all matrices, and the thresholds matter only on a thin set of them.", "anchors": ["source/qp.cc:QPNullSpaceSolver::Solve"]}
{"id": "C114", "title": "Units of the equality constraints", "statement": "Nonlinear solve with equality and no inequality constraints, with Eigen's factorisations (exact arithmetic, valid parameters, functions that do not fail): if at the starting point the gradient of one scalar equality constraint is at most K*eps times as long as that of another (K scalar constraints), the first iteration is undefined behaviour, whatever the costs. If everywhere each gradient keeps a distance of K*eps times the longest gradient from the span of the others, Solve returns. So for the cost x0 - 3 and the constraints x0 = 1, s (x1 - 1) = 0, Solve returns, from every starting point, if and only if 2 eps < |s| < 1/(2 eps).", "quantifier": "all problems, sizes, starting points, parameters and object histories of the stated kind; all s and starts in the example", "why_tests_cant": "Returning is a statement about every iteration of every run; the scale at which it fails is a property of all problems.", "anchors": ["source/nonlinear.cc:ConstrainedNonlinearLeastSquares::Solve", "source/qp.cc:QPNullSpaceSolver::Solve"]}
{"id": "C115", "title": "The solvers with Eigen's factorisations, from the call to the result", "statement": "With Eigen's algorithms in place of abstract linear algebra, in exact arithmetic, for functions that do not fail and valid parameters (lambda_initial = 0, positive initial penalty, at least one iteration), nothing else being assumed about the course of the call: (1) On affine residuals with a Jacobian of full column rank and no constraints, Solve returns from every start, with the unique minimiser, or with the start and SATISFIED_FIRST_ORDER_TOL, and then the start's cost exceeds the minimum by less than half of absolute_first_derivative_tol. (2) With equality but no inequality constraints whose gradients are independent everywhere, Solve returns; if the costs see every direction the linearised constraints leave free it does not report QP_INDEFINITE. (3) On affine costs and affine independent equality constraints with a unique best point, from a start that satisfies them, Solve returns that point, or the start and SATISFIED_FIRST_ORDER_TOL. (4) QPInteriorPointSolver::Solve on a QP with positive definite G, independent equality rows and a guess that is not the user's returns; without bounds it returns the minimiser; with bounds its slacks and multipliers are positive, and SATISFIED_KKT_TOL bounds the excess of the objective over every feasible point by the tolerances.", "quantifier": "all problems of the stated kinds of every size, all starts, parameters and object histories", "why_tests_cant": "That a call returns, and returns the solution, is claimed for every problem and start.", "anchors": ["source/nonlinear.cc:ConstrainedNonlinearLeastSquares::Solve", "source/qp.cc:QPInteriorPointSolver::Solve", "source/qp.cc:QPNullSpaceSolver::Solve"]}
{"id": "C116", "title": "Stopping a nonlinear solve and going on with a second call", "statement": "Let Solve, without callback, return after more than k iterations, iteration k having started in state NOMINAL. A second call on any solver object of the problem, started from the variables after k iterations with the lambda logged for iteration k as lambda_initial, the penalty logged before it as equality_penalty_initial and the remaining iterations as limit, returns the same variables, the same termination state and the rest of the log, numbered from zero. (In exact arithmetic, and in doubles with finite limits of the damping, these parameters always pass the checks.) So if damping and penalty still have their initial values the second call can use the same parameters. If Solve ended with SATISFIED_FIRST_ORDER_TOL in such an iteration, calling it again from the result ends after one iteration with the same report and the same variables. If the damping has changed, restarting with the same parameters is not a continuation: there is a problem on which one call ends with MAX_LAMBDA after four iterations, and any number of successive calls of two iterations each all end with MAX_ITERATIONS where they started.", "quantifier": "all problems, parameters, starts, object histories, k, and any arithmetic (exact or binary64)", "why_tests_cant": "The two ways of running the solver must agree on every problem, at every cut and in every arithmetic operation.", "anchors": ["source/nonlinear.cc:ConstrainedNonlinearLeastSquares::Solve", "source/nonlinear.cc:UpdateLambdaAndCheckExitConditions"]}
{"id": "C117", "title": "Rounding errors of the linear solves of the interior point solver", "statement": "With every operation rounded to a double and sums in any order, and nothing overflowing: the factors that the factorisation computes multiply up to the matrix H it was given within ((1+u)^(n+4)-1) |L||D||L^T| plus an explicit underflow term, entry by entry; each column x of the inverse satisfies H x = e within ((1+u)^(4n+16)-1) |L||D||L^T||x| plus underflow, row by row (at most 8 (n+4) 2^-53 relative to it for up to 2^48 rows); and the step (dx, dy) computed from the inverse satisfies the reduced system H (dx, -dy) = -(rx, ry) within those errors and the errors of two matrix products. If all computed pivots are positive, |L||D||L^T| is bounded entry by entry by geometric means of diagonal entries of H, so the solve is backward stable. With equality constraints it is not: there is a strictly convex problem with one equality constraint, whose matrix has an exact inverse with entries at most one, for which the factorisation reports success and the equality row of the inverse is wrong by one: the first step leaves an equality constraint that was satisfied violated by one.", "quantifier": "all matrices, right-hand sides, sizes, summation orders and problems in doubles for which the computed pivots and results are finite and the pivots above Eigen's cutoff", "why_tests_cant": "The bound is claimed for every matrix and every order of summation; a test shows one.", "anchors": ["source/qp.cc:QPInteriorPointSolver::ComputeLDLT", "source/qp.cc:QPInteriorPointSolver::SolveForUpdate", "source/qp.cc:QPInteriorPointSolver::SolveForUpdateNoInequalities"]}
{"id": "C118", "title": "Changing the units of the residuals and of the variables", "statement": "For problems without inequality constraints in exact arithmetic: multiply every cost residual by c, write the problem in variables in which every direction is s times as long (squared), and give the second solve the parameters in the new units: the absolute exit tolerance, the first derivative tolerance and the initial equality penalty times c^2, every damping parameter times c^2 s. Then the two solves take the same path - the same number of iterations, the same step sizes, the same decisions, the same termination - and every recorded cost, derivative, penalty and damping is the first one's in the new units. With any line search strategy, including cubic and quadratic interpolation. Without equality constraints this holds for every solve; with them, for the solves that do not end on one of the two absolute tolerances, which compare costs and constraint violations with the same number. The default parameters carry units: with residuals in units of ten thousand the default parameters return the initial guess where they solve the problem in the original units.", "quantifier": "all problems without inequality constraints, unit changes c and s, linear changes of variables that scale lengths, parameters, starting points and callbacks; without equality constraints every iteration damped or with costs that see every direction", "why_tests_cant": "Quantifies over all pairs of equivalent problems and whole histories of the solver; a test compares two runs.", "anchors": ["source/nonlinear.cc:ConstrainedNonlinearLeastSquares::Solve", "source/nonlinear.cc:ConstrainedNonlinearLeastSquares::SelectStepSize", "source/nonlinear.cc:ConstrainedNonlinearLeastSquares::SelectPenalty", "source/nonlinear.cc:ConstrainedNonlinearLeastSquares::UpdateLambdaAndCheckExitConditions"]}
{"id": "C119", "title": "A small cost is never improved", "statement": "Without constraints and with a problem that determines its Gauss-Newton step (or positive damping), an iteration that starts with a cost below half of absolute_first_derivative_tol does not move: Solve returns SATISFIED_FIRST_ORDER_TOL there. So every improvement starts from a cost of at least half of absolute_first_derivative_tol, whatever absolute_exit_tol asks for: with the default parameters a cost in [1e-12, 5e-7) is final, and 1e-12 is only reached by a jump from a cost of at least 5e-7.", "quantifier": "all unconstrained problems, parameters, starting points, iterations", "why_tests_cant": "Quantifies over all problems and every iteration of every solve.", "anchors": ["source/nonlinear.cc:ConstrainedNonlinearLeastSquares::Solve", "source/nonlinear.cc:ConstrainedNonlinearLeastSquares::SelectStepSize", "include/mini_opt/nonlinear.hpp:ConstrainedNonlinearLeastSquares::Params"]}
{"id": "C120", "title": "The interior point iteration does not depend on the units", "statement": "In exact arithmetic: multiply the cost of a QP by a positive number, measure each variable in its own units (possibly with the opposite sign), multiply each equality row by any nonzero number and each inequality constraint by a positive one. Two solves started from the same point in their own units, with initial barrier parameters in their own units, the same strategy and a barrier update on every iteration (the default), take the same step lengths and report the same barrier parameters (in the new units) in every iteration both of them make, and after equally many iterations stand at the same point. When Solve makes its own initial guess, this holds for all units of the variables and the equality rows, but the units of the cost and of the inequality constraints must agree. If variables and equality rows only change sign, everything reported is the same, with every barrier strategy.", "quantifier": "all regular QPs, units, parameters, start states, factorizations satisfying their contract, iterations", "why_tests_cant": "Quantifies over all problems, all scalings and whole histories; a test compares two runs.", "anchors": ["source/qp.cc:QPInteriorPointSolver::Solve", "source/qp.cc:QPInteriorPointSolver::Iterate", "source/qp.cc:QPInteriorPointSolver::ComputeInitialGuess", "source/qp.cc:QPInteriorPointSolver::ComputeAlpha", "source/qp.cc:QPInteriorPointSolver::ComputePredictorCorrectorMuAffine"]}
{"id": "C121", "title": "Calling Solve again from its own result, and what more damping does", "statement": "In exact arithmetic, from the same variables, an iteration of ConstrainedNonlinearLeastSquares::Solve without inequality constraints that uses a larger lambda computes a step that is not longer, and without any constraints reports a slope dF that is not steeper (and never positive). Hence, without constraints: a second Solve started from the result of one that ended with SATISFIED_FIRST_ORDER_TOL, with an initial lambda at least the last one used and a tolerance that is not stricter, ends after one iteration with the same variables; so does one started from a result with SATISFIED_ABSOLUTE_TOL if twice the absolute exit tolerance is at most the first-derivative tolerance, as it is by default.", "quantifier": "all problems without inequality constraints, parameters, objects, pairs of solves and iterations standing at the same variables (damping or costs that see every direction where there are no constraints)", "why_tests_cant": "Relates two whole runs with arbitrary parameters and arbitrary user functions.", "anchors": ["source/nonlinear.cc:ConstrainedNonlinearLeastSquares::Solve", "source/nonlinear.cc:ConstrainedNonlinearLeastSquares::LinearizeAndFillQP", "source/nonlinear.cc:ConstrainedNonlinearLeastSquares::SelectStepSize"]}
{"id": "C122", "title": "How far a reported QP solution is from the exact one, and how the two QP solvers compare", "statement": "In exact arithmetic: when QPInteriorPointSolver::Solve reports SATISFIED_KKT_TOL, then for every exact solution of the KKT conditions the G-energy of the difference in x, the products of the reported multipliers with the exact slacks and those of the exact multipliers with the reported slacks add up to at most M * termination_complementarity_tol + termination_kkt_tol * (|x-x*| + |y-y*| + |z-z*|); so if G >= sigma I the distance of x from x* is at most tol/sigma + sqrt((M*comp_tol + tol*(|y-y*|+|z-z*|))/sigma), and constraints are recognised as tight or not up to the tolerances. On QPs without inequality constraints, with a positive termination_complementarity_tol, QPInteriorPointSolver and QPNullSpaceSolver return the same x whenever both return one; a null-space solution that happens to satisfy the inequality constraints solves the QP with them. With Eigen's factorisations and a positive semidefinite G, the null-space solver needs G positive definite along the constraints, the interior point solver in every direction.", "quantifier": "all QPs, parameters, start states, exact solutions, factorizations satisfying their contracts (Eigen's algorithms for the last clause)", "why_tests_cant": "Quantifies over all problems and all states; a test compares with one known solution.", "anchors": ["source/qp.cc:QPInteriorPointSolver::Solve", "source/qp.cc:QPInteriorPointSolver::ComputeErrors", "source/qp.cc:QPNullSpaceSolver::Solve", "include/mini_opt/qp.hpp:QPNullSpaceSolver"]}
{"id": "C123", "title": "The trace of nonlinear solves that run on several threads", "statement": "Any number of threads, told apart by their thread ids, make nonlinear solves one after the other, in any interleaving of the steps of the collector. When all have finished, the buffered events of a thread are exactly the last ones of the scopes that can be read off the outputs of its own solves, in their order; if the buffer is not full (fewer than 100000 events) they are all of them, and no other thread's events are mixed in. The text get_trace_json then returns can be read, by the grammar of JSON, only as the list of the buffered events. Finitely many submitting threads can always finish.", "quantifier": "all numbers of threads, schedules, problems (of any size, in any arithmetic), parameters, clocks", "why_tests_cant": "Quantifies over all interleavings of all threads and over all solves they make.", "anchors": ["source/tracing.cc:trace_collector::submit_event", "source/tracing.cc:trace_collector::get_trace_json", "include/mini_opt/tracing.hpp:scoped_trace", "source/nonlinear.cc:ConstrainedNonlinearLeastSquares::Solve"]}
{"id": "C124", "title": "With equality constraints the penalty stays bounded and the solver stops by itself", "statement": "A problem with equality but no inequality constraints, any retraction, exact arithmetic, positive equality_penalty_initial. Let C be the merit function at the start divided by the initial penalty. If, wherever the constraints are violated by at most C, the stacked cost Jacobian stretches no vector by more than L and the linearized constraints can be satisfied by a displacement of at most kappa times the violation (in particular if no combination of the constraint gradients is shorter than 1/kappa times its coefficients), then no logged penalty exceeds the initial one or s/(1-rho) kappa^2 C (2 s/(1-rho) L^2 + L^2 + max_lambda), s the scale factor, and the violation never exceeds C, however long the solve runs. If moreover relative_exit_tol, absolute_exit_tol, lambda_failure_init and rho are positive and absolute_first_derivative_tol is at least machine epsilon times that bound, there is a B, depending only on the problem, start and tolerances, such that no solve logs more than B iterations and MAX_ITERATIONS is reported only when max_iterations <= B. Without these assumptions: rho times the sum over accepted steps of length times violation (violations of at least machine epsilon), plus 10^4 times the final violation, is at most 10^4 C.", "quantifier": "all such problems of any size, starts, parameters, iteration limits, retractions, callbacks, null-space solvers meeting their contract, histories of the solver object", "why_tests_cant": "Bounds the penalty and the number of iterations of runs of any length, from any start.", "anchors": ["source/nonlinear.cc:ConstrainedNonlinearLeastSquares::SelectPenalty", "source/nonlinear.cc:ConstrainedNonlinearLeastSquares::Solve", "source/nonlinear.cc:ConstrainedNonlinearLeastSquares::UpdateLambdaAndCheckExitConditions"]}
{"id": "C125", "title": "With smooth cost and equality constraints the line search never fails and the number of iterations is bounded explicitly", "statement": "A problem with equality but no inequality constraints, the default retraction, exact arithmetic, positive equality_penalty_initial and equality_penalty_rho. Let C be the merit function at the start divided by the initial penalty. Where the constraints are violated by at most C, let the cost lie below its quadratic models of curvature Lf, the linear model of the constraints be off by at most Lc/2 times the squared step, and the Gauss-Newton matrix damped with min_lambda be at least mu > 0; let no penalty exceed P (C124 provides one) and absolute_first_derivative_tol be at least machine epsilon times max(1,P). With L = Lf + P Lc: every refused trial step is longer than 1.9998 mu/(4L); every line search ends in success, first order satisfied or exhaustion; every accepted step is at least min(1, (20/41) mu/(4L)) long (or the analogue with tau for backtracking) and has a merit derivative of at most -rho tol min(1,penalty); the slopes of the merit function along accepted directions, divided by the penalty, have a sum of at most 10^4 C over the shortest step. Hence with N > 10^4 C max(1,P) / (shortest step * rho * tol) there are at most N(R+1) iterations if R failures exceed max_lambda; with enough line search iterations no failure at all and at most N iterations; and in that case, or with max_lambda at least 20.0021 L, the solver ends by a tolerance or the callback, not by MAX_ITERATIONS (unless the limit is below the bound), MAX_LAMBDA or QP_INDEFINITE.", "quantifier": "all such problems of any size, starts, parameters, iteration limits, callbacks, null-space solvers meeting their contract, histories of the solver object", "why_tests_cant": "A rate and a worst case over all problems with given constants and over runs of any length.", "anchors": ["source/nonlinear.cc:ConstrainedNonlinearLeastSquares::Solve", "source/nonlinear.cc:ConstrainedNonlinearLeastSquares::SelectStepSize", "source/nonlinear.cc:ConstrainedNonlinearLeastSquares::SelectPenalty", "source/nonlinear.cc:ConstrainedNonlinearLeastSquares::UpdateLambdaAndCheckExitConditions"]}
{"id": "C126", "title": "Near a point where all costs and equality constraints vanish the solver converges quadratically if the penalty is small", "statement": "A problem with equality but no inequality constraints, default retraction, no damping (lambda_initial = 0, the default), exact arithmetic. Suppose all costs and constraints vanish at a point and within a ball of radius r about it the stacked cost Jacobian stretches vectors by at least sigma and at most B, costs and constraints differ from their linear models by at most L/2 and Lc/2 times the squared distance, every right-hand side of the linearized constraints is reached by a displacement at most kappa times as long (so if the rows of the constraint Jacobian are uniformly independent), and the ball is small: (L + B kappa Lc) r <= sigma/8, kappa Lc r <= 3/8. Then the computed direction always leads to within C = (L + B kappa Lc)/(2 sigma) + kappa Lc/2 times the squared distance. If moreover equality_penalty_initial * Lc <= sigma^2/2, then from every start in the ball the penalty is never raised, every iteration tries the full step and nothing else, and accepts it unless the first-order test ends the run there; after k iterations the distance is at most r (1/4)^(2^k - 1); with relative_exit_tol <= 0.08 the run ends by the absolute tolerance (within sqrt(2 tol)/(3/4 sigma) of the solution), by the first-order tolerance (within sqrt(tol)/(4/5 sigma)), by max_iterations or by the callback, never with MAX_LAMBDA, SATISFIED_RELATIVE_TOL or QP_INDEFINITE; and it ends within m + 1 iterations once the bounds on cost and violation after m + 1 steps are below absolute_exit_tol. (C110 shows that a penalty four times larger can make every full step refused.)", "quantifier": "all cost and constraint functions with such a ball, all starts in it, all parameter values with the stated bounds, all iterations, all solver states", "why_tests_cant": "A test sees a few starts of a few problems; that the merit function accepts every full step, and that the penalty is never raised, must hold for every problem and every point of the ball, and depends on a relation between the penalty and the curvature of the constraints that a test on one problem does not reveal.", "anchors": ["source/nonlinear.cc:ConstrainedNonlinearLeastSquares::Solve", "source/nonlinear.cc:ConstrainedNonlinearLeastSquares::ComputeStepDirection", "source/nonlinear.cc:ConstrainedNonlinearLeastSquares::SelectPenalty", "source/nonlinear.cc:ConstrainedNonlinearLeastSquares::SelectStepSize", "source/qp.cc:QPNullSpaceSolver::Solve"]}
{"id": "C127", "title": "Near a minimum with small but nonzero residual the solver converges linearly with full steps", "statement": "Costs only (no constraints), default retraction, no damping (lambda_initial = 0, the default), exact arithmetic. Suppose the gradient of the cost vanishes at a point x*, and within a ball of radius r about it the stacked Jacobian stretches vectors by at least sigma and at most B, is Lipschitz at x* with constant L, and the residuals differ from their linear models by at most L/2 times the squared distance; that the residual at x* is small compared with the curvature, L |r(x*)| <= theta sigma^2 with theta <= 1/2; and that the ball is small, L r <= sigma/2. Then x* is the only minimum of the cost in the ball (the cost grows by at least sigma^2/32 times the squared distance); from every start in the ball every iteration tries the full step and nothing else, and accepts it unless the first-order test ends the run there; an accepted step leads to within theta times the old distance plus L/(2 sigma) times its square, so the distance after k iterations is at most (3/4)^k times the distance at the start; the cost never increases; the run ends by the absolute tolerance, the relative tolerance (within 10 sqrt(tol * initial cost)/sigma of x*), the first-order tolerance (within 4 sqrt(tol)/sigma), max_iterations or the callback, never with MAX_LAMBDA or QP_INDEFINITE; and it ends within m + 1 iterations once the bound (7/4 B (3/4)^m |x0 - x*|)^2 on the derivative is below absolute_first_derivative_tol.", "quantifier": "all cost functions with such a ball, all starts in it, all parameter values with lambda_initial <= 0, all iterations, all solver states", "why_tests_cant": "That the line search accepts every full step although the model ignores the second derivatives of the residuals, and that a relative tolerance implies closeness to the minimum, must hold for every problem and every point of the ball; a test sees a few.", "anchors": ["source/nonlinear.cc:ConstrainedNonlinearLeastSquares::Solve", "source/nonlinear.cc:ConstrainedNonlinearLeastSquares::ComputeStepDirection", "source/nonlinear.cc:ConstrainedNonlinearLeastSquares::SelectStepSize", "source/nonlinear.cc:ConstrainedNonlinearLeastSquares::UpdateLambdaAndCheckExitConditions", "source/qp.cc:QPInteriorPointSolver::Solve"]}
{"id": "C128", "title": "With bounds, or inexact linear solves, a smooth cost is minimised in a bounded number of iterations", "statement": "No equality constraints, default retraction, a non-empty box and a start that violates no bound by more than 1e-9, exact arithmetic outside the linear solver. Suppose the cost lies below its quadratic models of curvature L on the sublevel set of the start, and the damped Gauss-Newton matrix is at least mu > 0 there. Let missed(QP) be the duality gap of the QP subproblem's solution, plus its dual and primal residual norms times the norms of step and multipliers, plus 1e-9 times the multipliers; suppose missed is at most half of absolute_first_derivative_tol in every iteration. Then every refused trial step is longer than 1.3332 mu / L; no iteration ends with POSITIVE_DERIVATIVE, an invalid cost or an invalid alpha; an accepted step is at least a constant long; fewer than S steps are accepted before the last iteration, where S > 10^4 cost(x0) / (constant * tolerance), there are at most S (R + 1) iterations if R failures take the damping beyond max_lambda, and with enough line search iterations no step fails, at most S iterations are made and one of the tolerances is satisfied (unless the callback ends the solve or max_iterations is at most S); if max_lambda >= max(lambda_failure_init, 7.51 L) the solver never ends with MAX_LAMBDA. If a QP ended with SATISFIED_KKT_TOL then missed is at most 1e-6 per inequality constraint plus termination_kkt_tolerance times the norms of step and multipliers plus 1e-9 times the multipliers; it is zero for an exact linear solver and no constraints.", "quantifier": "all smooth problems with bounds, all feasible starts, all parameter values, all solver states, all implementations of the linear solver", "why_tests_cant": "How inaccurately the subproblems may be solved before the line search breaks down is a statement about all problems and all linear solvers; tests run a few problems with one linear solver.", "anchors": ["source/nonlinear.cc:ConstrainedNonlinearLeastSquares::Solve", "source/nonlinear.cc:ConstrainedNonlinearLeastSquares::ComputeStepDirection", "source/nonlinear.cc:ConstrainedNonlinearLeastSquares::SelectStepSize", "source/qp.cc:QPInteriorPointSolver::Solve"]}
{"id": "C129", "title": "With bounds: the numbering, sign and origin of the variables do not matter", "statement": "Take a nonlinear problem with at least one bound on a variable (and possibly equality constraints) and rewrite it in variables y where the old variable i is plus or minus y[sigma(i)] plus t[i], for a permutation sigma, any choice of signs and any shift t: residuals read the new variables and have the corresponding Jacobians, a bound a x_i + b >= 0 becomes the corresponding bound on y[sigma(i)], all lists may be given in another order, start points correspond, and retractions and callbacks correspond (the default retraction does). Suppose some point satisfies all bounds, the linear solvers are exact, and in each iteration of the first solve the Hessian is positive definite (damped, or no direction leaves the linearized costs unchanged) and the linearized equality constraints independent. If both solves return, they end at corresponding points for the same reason, and log the same numbers in every iteration: cost, violation, damping, penalty, slope, line search steps, and everything the QP solver reports (iterations, residuals, mu, multipliers). Only the eigenvalues of the Hessian, logged on request, are not compared.", "quantifier": "all problems with bounds and equality constraints of all sizes, all permutations, signs and shifts of the variables, all parameters, start points and solver states", "why_tests_cant": "A test compares one problem with one renumbering; that no decision of the solver depends on the order, sign or origin of the variables is a statement about all of them.", "anchors": ["source/nonlinear.cc:ConstrainedNonlinearLeastSquares::Solve", "source/nonlinear.cc:ConstrainedNonlinearLeastSquares::LinearizeAndFillQP", "source/nonlinear.cc:ConstrainedNonlinearLeastSquares::ComputeStepDirection", "source/qp.cc:QPInteriorPointSolver::Solve"]}
{"id": "C130", "title": "The order in which costs, bounds and equality constraints are listed does not matter", "statement": "Take two nonlinear problems whose costs, bounds and equality constraints are the same, listed in different orders, with the same retraction and callback. Suppose the linear solvers are exact. Without bounds (and, without constraints, if in each iteration the step is damped or the Jacobian has full rank): if both solves return from the same start, they end at the same point for the same reason, and log the same numbers (apart from the QP solver's own outputs and the eigenvalues). With bounds: the same, including everything the QP solver reports, if some point satisfies all bounds and in each iteration of the first solve the Hessian is positive definite and the linearized equality constraints independent. (For costs and bounds alone C83 says more, with no condition on the problem; the equality constraints are the rows of a linear system, so their order reaches the factorizations.) If the first solve returns, so does the second, unless user code throws in it or its factorisation routine reports failure.", "quantifier": "all problems, all orders, all parameters, start points, solver states and exact factorizations", "why_tests_cant": "A test compares a few orders of one problem; the claim is about every order of every problem.", "anchors": ["source/nonlinear.cc:ConstrainedNonlinearLeastSquares::LinearizeAndFillQP", "source/nonlinear.cc:ConstrainedNonlinearLeastSquares::ComputeStepDirection", "source/qp.cc:QPInteriorPointSolver::Solve", "source/qp.cc:QPNullSpaceSolver::Solve"]}
{"id": "C131", "title": "A problem with equality constraints only is solved without complaint when its linearizations are regular", "statement": "Take a problem with equality constraints and no bounds. If at every point the linearized equality constraints are independent and only the zero step leaves the linear models of all costs and all constraints unchanged, then Solve with valid parameters and a positive initial penalty returns from every start, with a termination state other than QP_INDEFINITE - unless a function of the user (residual, retraction, callback) throws, and then that is the exception.", "quantifier": "all such problems of all sizes, all valid parameters, start points, solver states and exact factorizations", "why_tests_cant": "That none of the iterates ever meets the indefinite or rank deficient case is a statement about every point and every history of the solver.", "anchors": ["source/nonlinear.cc:ConstrainedNonlinearLeastSquares::Solve", "source/nonlinear.cc:ConstrainedNonlinearLeastSquares::ComputeStepDirection", "source/qp.cc:QPNullSpaceSolver::Solve"]}
{"id": "C132", "title": "The iteration limit, the exit tolerances and max_lambda only decide when to stop", "statement": "The limit on the iterations, the three exit tolerances and max_lambda of the nonlinear solver have no influence on where the iterations go: two solves from the same start whose parameters differ only in max_iterations, absolute_exit_tol, relative_exit_tol and max_lambda log the same iterations, show the callback the same values and visit the same points for as long as both run. With exact arithmetic, if a solve with stricter parameters returns, so does the solve with looser ones (the first-derivative tolerance included, if the callback does not throw); it logs no more iterations, the beginning of the other log, it ends at the point where the other solve was at that time, and it is one of these parameters that stops it unless the two solves are the same to the end. The same holds for the interior point solver, its iteration limit and its two termination tolerances.", "quantifier": "all problems, all valid parameter sets that differ only in these, start points and solver states", "why_tests_cant": "A test compares a few parameter sets on one problem; independence of a parameter is a statement about all of its values and every history.", "anchors": ["source/nonlinear.cc:ConstrainedNonlinearLeastSquares::UpdateLambdaAndCheckExitConditions", "source/nonlinear.cc:ConstrainedNonlinearLeastSquares::Solve", "source/nonlinear.cc:ConstrainedNonlinearLeastSquares::SelectStepSize", "source/qp.cc:QPInteriorPointSolver::Solve"]}
{"id": "C133", "title": "Watching a nonlinear solve does not change it", "statement": "A callback that does not throw can do one thing only: stop the solve by answering false. If it does, USER_CALLBACK is reported, and the log and the whole solver object are those of the same call without callback and with max_iterations set to the number of iterations so far. If it does not, the result, the object left behind and any exception are those of the call without callback; in particular for a callback that always answers true. Switching log_qp_eigenvalues on changes nothing but the presence of the eigenvalue statistics in the log (if the callback does not look at them): same result, same object, same exception.", "quantifier": "all problems, parameters, start points, solver states and callbacks, any arithmetic", "why_tests_cant": "A test compares two runs of one problem; that watching has no effect is a statement about every problem, history and callback.", "anchors": ["source/nonlinear.cc:ConstrainedNonlinearLeastSquares::Solve", "include/mini_opt/nonlinear.hpp:ConstrainedNonlinearLeastSquares::Params", "source/qp.cc:QP::ComputeEigenvalueStats"]}
{"id": "C134", "title": "Normalising the variables in the retraction does not change a solve", "statement": "A custom retraction may bring the variables into a normal form T after adding the step: angles into one period, as the library's own tests do with ModPi, or a quaternion to one of its two signs. If no residual (value, Jacobian, exception) tells T y from y, T leaves bounded variables alone, and moving from T y gives T of what the other retraction gives from y, then Solve from T x0 is Solve with the other retraction from x0: the same exception, or the same termination state, the same log and the same callback calls, and the variables in the object are T of the other's. In particular (exact arithmetic), if some variables are angles - adding one period changes no residual, no bounds on them - a solve with the retraction that wraps them into [lo, lo + period) after each step is the solve with plain addition, started from the unwrapped angles, with the variables wrapped. Bounds on the other variables are allowed.", "quantifier": "all problems, parameters, starts, solver states, callbacks, retractions and normal forms with the stated compatibility (any arithmetic); all periods and sets of angles (exact arithmetic)", "why_tests_cant": "The tests solve a few chains with ModPi; that wrapping never changes an iteration is a statement about every problem, start and history.", "anchors": ["source/nonlinear.cc:ConstrainedNonlinearLeastSquares::RetractCandidateVars", "source/nonlinear.cc:ConstrainedNonlinearLeastSquares::Solve", "include/mini_opt/nonlinear.hpp:ConstrainedNonlinearLeastSquares::Retraction", "test/nonlinear_test.cc:math::ModPi"]}
{"id": "C135", "title": "Only the sum of squares matters, not the residuals it is written with", "statement": "Replace the cost residuals by others - more or fewer, of other dimensions, reading other parameters - such that at every point and for every step the linear models have the same sum of squares. Then Solve does the same from every start: the same exception or the same result, the same log including the QP solver's outputs and the eigenvalues, the same callback calls, and the same object. Bounds, equality constraints, custom retractions and any QP outcome are allowed. In particular: rotating a residual, changing the signs or the order of its components, appending zeros (any table that keeps lengths), or writing a residual of dimension d as d residuals of dimension one changes nothing.", "quantifier": "all well-posed problems whose costs do not throw, all replacements with the same sum of squares of the linear models, all parameters, starts, callbacks and object histories (exact arithmetic)", "why_tests_cant": "A test compares two ways of writing one problem; that the solver sees nothing but the sum of squares is a statement about every problem and history.", "anchors": ["source/nonlinear.cc:ConstrainedNonlinearLeastSquares::LinearizeAndFillQP", "source/nonlinear.cc:ConstrainedNonlinearLeastSquares::EvaluateNonlinearErrors", "include/mini_opt/residual.hpp:Residual::UpdateHessian", "source/nonlinear.cc:ConstrainedNonlinearLeastSquares::Solve"]}
{"id": "C136", "title": "A symmetric problem started symmetric stays symmetric; variables nothing reads stay where they are", "statement": "Let a change of coordinates turn the problem into itself (up to the order of its residuals and bounds) and leave the start where it is. Then it leaves the result of Solve where it is: interchangeable variables with equal initial values end with equal values, and a problem that is even in a variable keeps that variable at zero. Without bounds every such change of coordinates is allowed as in C101; with bounds exchanges of variables, reflections and their combinations. In particular, with the default retraction, a variable that no cost, equality constraint or bound reads keeps its initial value exactly, although the Hessian is singular in its direction, if the iterations are damped (on the null-space path, whether or not they are). All of this holds after every iteration of the solve, not only at its end.", "quantifier": "all well-posed problems and symmetries of them, all parameters, symmetric starts, callbacks and object histories for which Solve returns, given damping or a regular problem (exact arithmetic)", "why_tests_cant": "A test has one symmetric problem; that no step, pivot order or tie ever breaks a symmetry is a statement about all problems, starts and numbers of iterations.", "anchors": ["source/nonlinear.cc:ConstrainedNonlinearLeastSquares::Solve", "source/nonlinear.cc:ConstrainedNonlinearLeastSquares::LinearizeAndFillQP", "source/qp.cc:QPInteriorPointSolver::Solve"]}
