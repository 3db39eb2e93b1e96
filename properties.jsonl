{"id": "C01", "title": "L0 prox is the best k-sparse approximation", "statement": "L0Regularizer(nnz=k).prox(x, alpha) without weights returns a vector of the same length in which every entry is either the entry of x or 0, at most max(k,0) entries are nonzero, every dropped entry is no larger in absolute value than every kept one, and no vector with at most k nonzeros is closer to x in Euclidean distance. If k >= len(x) the result is x.", "quantifier": "every vector x of every length, every integer k (negative and larger than len(x) included), every alpha, and every tie-breaking the sort may choose", "why_tests_cant": "the sort is unstable, so ties may be broken in any way, and optimality compares the output against infinitely many sparse vectors", "anchors": ["src/pysr3/regularizers.py:_take_only_k_max", "src/pysr3/regularizers.py:L0Regularizer.prox"]}
{"id": "C02", "title": "L0 prox never touches must-include coordinates and respects the budget", "statement": "With weights attached, L0Regularizer.prox leaves every coordinate of weight 0 exactly as given, keeps at most max(nnz - m, 0) nonzeros among the others (m = number of weight-0 coordinates), so at most nnz nonzeros overall whenever m <= nnz; and it is the closest such vector to x. With nnz=None and weights attached it returns x unchanged.", "quantifier": "every x, every weight vector, every nnz, every tie-breaking of the sort", "why_tests_cant": "interaction between mask, budget and ties ranges over exponentially many masks and all real vectors", "anchors": ["src/pysr3/regularizers.py:L0Regularizer.instantiate", "src/pysr3/regularizers.py:L0Regularizer.prox"]}
{"id": "C03", "title": "L1 prox is the exact soft-thresholding minimiser", "statement": "L1Regularizer(lam).prox(x, alpha) is the unique minimiser over z of alpha*lam*sum_i w_i|z_i| + 1/2||z-x||^2 (w=1 when no weights are attached).", "quantifier": "every x, z, weights w >= 0, lam >= 0, alpha >= 0", "why_tests_cant": "optimality against all z is a universally quantified inequality over reals", "anchors": ["src/pysr3/regularizers.py:L1Regularizer.prox"]}
{"id": "C04", "title": "L1 value and prox describe the same penalty", "statement": "L1Regularizer.prox(x, alpha) minimises alpha*value(z) + 1/2||z-x||^2, where value is the regularizer's own value method.", "quantifier": "every x, z, lam >= 0, weights >= 0 attached or not, alpha >= 0", "why_tests_cant": "the shipped tests only use lam or weights equal to one, where the discrepancy (value drops lam once weights are attached) is invisible", "anchors": ["src/pysr3/regularizers.py:L1Regularizer.value", "src/pysr3/regularizers.py:L1Regularizer.prox"]}
{"id": "C05", "title": "CAD prox minimises the clipped-absolute-deviation penalty", "statement": "CADRegularizer(rho, lam).prox(x, alpha) minimises alpha*value(z) + 1/2||z-x||^2.", "quantifier": "every x, z, rho >= 0, lam >= 0, alpha >= 0, weights in {0,1}", "why_tests_cant": "the objective is nonconvex; only a proof covers the band just above rho where the two local minima compete", "anchors": ["src/pysr3/regularizers.py:CADRegularizer.value", "src/pysr3/regularizers.py:CADRegularizer.prox"]}
{"id": "C06", "title": "SCAD prox is the exact minimiser", "statement": "SCADRegularizer(rho, sigma, lam).prox(x, alpha) is finite and minimises alpha*value(z) + 1/2||z-x||^2; in the strongly convex regime alpha*lam*w < rho-1 the minimiser is unique.", "quantifier": "every x, z, rho > 1, sigma >= 0, lam >= 0, alpha >= 0, weights >= 0", "why_tests_cant": "three regimes meet at two moving knots; a test can sample points but not all knots or the 0/0 point", "anchors": ["src/pysr3/regularizers.py:SCADRegularizer.value", "src/pysr3/regularizers.py:SCADRegularizer.prox"]}
{"id": "C07", "title": "Penalties are well shaped", "statement": "The values of the L1, CAD and SCAD regularizers are >= 0, vanish at 0, depend only on the absolute values of the coordinates, never decrease when absolute values grow, and CAD/SCAD are constant once every coordinate is past the last knot (rho for CAD, rho*sigma for SCAD); SCAD has no jump at its knots (it is Lipschitz with constant lam*w*sigma per coordinate).", "quantifier": "every pair of vectors, all parameters rho > 1, sigma >= 0, lam >= 0 and weights >= 0", "why_tests_cant": "monotonicity and continuity quantify over all pairs of real points", "anchors": ["src/pysr3/regularizers.py:L1Regularizer.value", "src/pysr3/regularizers.py:CADRegularizer.value", "src/pysr3/regularizers.py:SCADRegularizer.value"]}
{"id": "C08", "title": "Elastic wrapper is the exact prox of penalty plus ridge", "statement": "If the wrapped regularizer's prox is an exact minimiser for its own value, ElasticRegularizer(eps, r).prox(x, alpha) exactly minimises alpha*(eps/2||z||^2 + r.value(z)) + 1/2||z-x||^2; with nothing wrapped it minimises the ridge objective.", "quantifier": "every wrapped regularizer with an exact prox, every x, alpha > 0, eps >= 0", "why_tests_cant": "quantifies over every possible wrapped regularizer, not over a list of samples", "anchors": ["src/pysr3/regularizers.py:ElasticRegularizer.prox", "src/pysr3/regularizers.py:ElasticRegularizer.value"]}
{"id": "C09", "title": "Positive-quadrant wrapper enforces non-negative variances", "statement": "For every combination of wrapped regularizer the library builds (dummy, L0, L1, CAD, SCAD, each optionally inside the elastic wrapper), PositiveQuadrantRegularizer.prox returns a vector whose random-effect coordinates are all >= 0, so its own value is finite.", "quantifier": "every x (any signs), every alpha >= 0, weights >= 0, lam >= 0, eps >= 0, every number of fixed and random effects", "why_tests_cant": "the guarantee composes several operators for unbounded dimensions and all reals", "anchors": ["src/pysr3/regularizers.py:PositiveQuadrantRegularizer.prox", "src/pysr3/regularizers.py:PositiveQuadrantRegularizer.value", "src/pysr3/regularizers.py:ElasticRegularizer.prox"]}
{"id": "C10", "title": "Positive-quadrant wrapper is the exact constrained prox", "statement": "If the wrapped penalty is a sum of even functions that do not decrease in |z_i| and its prox is an exact minimiser, then PositiveQuadrantRegularizer.prox(x, alpha) minimises alpha*penalty(z) + 1/2||z-x||^2 over all z whose random-effect coordinates are non-negative.", "quantifier": "every wrapped separable even monotone penalty, every x and alpha >= 0", "why_tests_cant": "clip-then-prox equals the constrained prox only under a structural condition which must be proved", "anchors": ["src/pysr3/regularizers.py:PositiveQuadrantRegularizer.prox"]}
{"id": "C11", "title": "Weight zero switches regularization off", "statement": "For every L0, L1, CAD and SCAD regularizer, a coordinate whose regularization weight is 0 comes out of prox exactly as it went in, whatever the other coordinates are.", "quantifier": "every x, every weights vector, every coordinate, every lam, rho, sigma, nnz and alpha", "why_tests_cant": "must-include variables are promised for every dataset, not only the sampled ones", "anchors": ["src/pysr3/regularizers.py:L0Regularizer.prox", "src/pysr3/regularizers.py:L1Regularizer.prox", "src/pysr3/regularizers.py:CADRegularizer.prox", "src/pysr3/regularizers.py:SCADRegularizer.prox"]}
{"id": "C12", "title": "Prox never flips signs or inflates coefficients", "statement": "In every output of L0, L1, CAD and SCAD prox (SCAD in the regime alpha*lam*w < rho-1), each coordinate has absolute value at most that of the input and is never of opposite sign; L1 gives an exact zero iff |x_i| <= alpha*lam*w_i.", "quantifier": "every x and all parameters with alpha*lam*w >= 0", "why_tests_cant": "holds coordinatewise for a continuum of inputs and thresholds", "anchors": ["src/pysr3/regularizers.py:L1Regularizer.prox", "src/pysr3/regularizers.py:CADRegularizer.prox", "src/pysr3/regularizers.py:SCADRegularizer.prox", "src/pysr3/regularizers.py:_take_only_k_max"]}
{"id": "C13", "title": "Soft-thresholding is firmly nonexpansive", "statement": "For L1Regularizer.prox, ||prox(x)-prox(y)||^2 <= <prox(x)-prox(y), x-y>, hence the distance between outputs never exceeds the distance between inputs.", "quantifier": "every x, y, alpha*lam*w >= 0", "why_tests_cant": "a two-point inequality over all pairs of vectors", "anchors": ["src/pysr3/regularizers.py:L1Regularizer.prox"]}
{"id": "C14", "title": "Mixed-model L0 prox respects both budgets and the hierarchy", "statement": "L0RegularizerLME.prox keeps at most max(nnz_tbeta - m_b, 0) + m_b nonzero fixed effects and max(nnz_tgamma - m_g,0) + m_g nonzero random effects (m = must-include counts), never changes must-include coefficients, only zeroes the rest, and (when independent_beta_and_gamma is False) returns a zero variance for every regularized random effect whose matching fixed effect was removed.", "quantifier": "every beta, gamma, weights, budgets, label pattern and tie-breaking", "why_tests_cant": "combines two selections and a feature map over unbounded dimensions", "anchors": ["src/pysr3/regularizers.py:L0RegularizerLME.instantiate", "src/pysr3/regularizers.py:L0RegularizerLME.optimal_tbeta", "src/pysr3/regularizers.py:L0RegularizerLME.optimal_tgamma", "src/pysr3/regularizers.py:L0RegularizerLME.prox"]}
{"id": "C15", "title": "A reused L0 mixed-model regularizer behaves like a fresh one", "statement": "After forget() and instantiate() on a new problem, an L0RegularizerLME created with nnz_tbeta=None / nnz_tgamma=None keeps all coefficients of the new problem, exactly as a freshly created one.", "quantifier": "every history of instantiate/forget calls over problems of any size", "why_tests_cant": "a property of histories; the suite never reuses a regularizer on a larger problem", "anchors": ["src/pysr3/regularizers.py:L0RegularizerLME.instantiate", "src/pysr3/regularizers.py:L0RegularizerLME.forget"]}
{"id": "C16", "title": "The solver always stops and reports honest iteration counts", "statement": "PGDSolver.optimize terminates, performs at most max_iter iterations, and records in the logger exactly the number of prox-gradient steps performed.", "quantifier": "every oracle, regularizer, starting point, tolerance, stepping rule and max_iter", "why_tests_cant": "termination is a statement about all executions", "anchors": ["src/pysr3/solvers.py:PGDSolver.optimize"]}
{"id": "C17", "title": "converged=True means the last step was short", "statement": "If the logger reports converged=True after PGDSolver.optimize on a non-empty parameter vector, then the last two iterates differ by at most tol in norm. Conversely converged=False is only reported when the iteration budget was used up.", "quantifier": "every oracle, regularizer, starting point, tol and max_iter >= 0", "why_tests_cant": "must hold for all objective functions and stopping times", "anchors": ["src/pysr3/solvers.py:PGDSolver.optimize"]}
{"id": "C18", "title": "Whatever prox enforces, the fitted parameters satisfy", "statement": "If max_iter >= 1 and the starting point is non-empty, the vector returned by PGDSolver.optimize is an output of regularizer.prox (with a positive step length when fixed_step_len > 0); so any set containing all prox outputs contains the result.", "quantifier": "every oracle (even inconsistent or nondeterministic in value), every regularizer, starting point and stepping policy", "why_tests_cant": "it is an invariant of all iterations for all oracles", "anchors": ["src/pysr3/solvers.py:PGDSolver.optimize"]}
{"id": "C19", "title": "Backtracking line search terminates at the first acceptable step", "statement": "The step length used in a line-search iteration is fixed_step_len/2^j where j is the least number of halvings such that either the sufficient-decrease test holds or the step is <= 1e-14; this j always exists.", "quantifier": "every oracle, regularizer, point, direction and initial step", "why_tests_cant": "unbounded inner loop; needs a termination argument", "anchors": ["src/pysr3/solvers.py:PGDSolver.optimize"]}
{"id": "C20", "title": "Accepted steps never increase the objective", "statement": "If prox is an exact minimiser for the regularizer's value and the line search accepts a step, then value_function + regularizer.value does not increase; hence if every step is accepted the logged loss sequence is non-increasing.", "quantifier": "every oracle (any direction vector), every regularizer with exact prox, every starting point and step length > 0", "why_tests_cant": "monotonicity along all trajectories of all problems", "anchors": ["src/pysr3/solvers.py:PGDSolver.optimize"]}
{"id": "C21", "title": "Fixed points of the solver solve the convex problem", "statement": "If the smooth part lies above its tangent planes (convex) and prox is the exact minimiser of a convex penalty, then a point that one solver step maps to itself is a global minimiser of value_function + regularizer.value, and conversely every global minimiser is left unchanged by a step.", "quantifier": "every convex oracle with a correct gradient, every convex regularizer, every step length > 0", "why_tests_cant": "global optimality versus all points", "anchors": ["src/pysr3/solvers.py:PGDSolver.optimize"]}
{"id": "C22", "title": "The loss log lists the objective at every iterate", "statement": "With 'loss' among the logger keys (a tuple without repetitions), after PGDSolver.optimize the logged loss list has exactly iteration+1 entries, the k-th being value_function + regularizer.value at the k-th iterate, the 0-th at the starting point.", "quantifier": "every oracle, regularizer, start, number of iterations and set of other keys", "why_tests_cant": "relates an unbounded log to an unbounded trajectory", "anchors": ["src/pysr3/solvers.py:PGDSolver.optimize", "src/pysr3/logger.py:Logger.log"]}
{"id": "C23", "title": "Logger records exactly the requested keys", "statement": "For any sequence of log/add operations on a Logger created from a tuple of distinct keys, get(key) returns: the value of the last add for that key followed by all values logged since (when that value is a list), or the added value itself; keys never requested are ignored; keys unknown to the logger raise KeyError.", "quantifier": "every finite sequence of log and add calls with any keys and values", "why_tests_cant": "quantifies over all histories", "anchors": ["src/pysr3/logger.py:Logger.log", "src/pysr3/logger.py:Logger.add", "src/pysr3/logger.py:Logger.get"]}
{"id": "C24", "title": "Logger.append starts new keys from zero", "statement": "Logger.append(key, value) on a key which is not yet present behaves as documented: it starts with 0 and adds value.", "quantifier": "every logger state and key", "why_tests_cant": "documented for all keys; behaviour on absent keys is never exercised", "anchors": ["src/pysr3/logger.py:Logger.append"]}
{"id": "C25", "title": "Logger accepts the documented set of keys", "statement": "A Logger created from a set (the annotated type) or list of keys supports add of a new key just like one created from a tuple, in particular a completed optimisation can record its iteration count.", "quantifier": "every collection of keys and every key added", "why_tests_cant": "concerns every container type a caller may pass", "anchors": ["src/pysr3/logger.py:Logger.__init__", "src/pysr3/logger.py:Logger.add", "src/pysr3/solvers.py:PGDSolver.optimize"]}
{"id": "C26", "title": "Gaussian prior aligns parameters with columns and validates them", "statement": "GaussianPrior.instantiate succeeds iff every named parameter is one of the columns and no standard deviation attached to a column is negative; afterwards its loss depends on a coordinate iff that coordinate's column was given a positive std, and it uses the mean and std given for exactly that column.", "quantifier": "every parameter dictionary and list of column names", "why_tests_cant": "alignment must hold for arbitrary dictionaries and column orders", "anchors": ["src/pysr3/priors.py:GaussianPrior.instantiate", "src/pysr3/priors.py:GaussianPrior.loss"]}
{"id": "C27", "title": "Prior gradient and Hessian are the derivatives of the prior", "statement": "For Gaussian priors, loss(x+h) = loss(x) + gradient(x).h + 1/2 h.hessian.h exactly, the Hessian is diagonal and non-negative, and loss is minimal (zero) at the means.", "quantifier": "every instantiated prior, all x and h", "why_tests_cant": "exact identity over reals", "anchors": ["src/pysr3/priors.py:GaussianPrior.loss", "src/pysr3/priors.py:GaussianPrior.gradient", "src/pysr3/priors.py:GaussianPrior.hessian", "src/pysr3/lme/priors.py:GaussianPriorLME"]}
{"id": "C28", "title": "Gaussian prior is parameterised by standard deviations", "statement": "The loss of GaussianPrior with parameter (mean, std) at x is (x-mean)^2/(2 std^2), the negative log-density of N(mean, std^2) up to a constant.", "quantifier": "every mean, every std > 0, every x", "why_tests_cant": "tests use std = 1 only", "anchors": ["src/pysr3/priors.py:GaussianPrior.loss"]}
{"id": "C29", "title": "A mixed-model prior can be reused after forget", "statement": "Calling forget() and then instantiate(problem) on a GaussianPriorLME gives the same prior as instantiating a new one.", "quantifier": "every prior and problem with column names", "why_tests_cant": "a property of call histories", "anchors": ["src/pysr3/lme/priors.py:GaussianPriorLME.instantiate", "src/pysr3/lme/priors.py:GaussianPriorLME.forget"]}
{"id": "C30", "title": "Gaussian priors are usable with linear models", "statement": "A LinearOracle created with a GaussianPrior can be instantiated on a LinearProblem whose columns include the prior's parameters.", "quantifier": "every prior and problem", "why_tests_cant": "statement about every possible prior/problem pair", "anchors": ["src/pysr3/linear/oracles.py:LinearOracle.instantiate", "src/pysr3/priors.py:GaussianPrior.instantiate"]}
{"id": "C31", "title": "Linear oracle's gradient and Hessian are exact and its loss is convex", "statement": "LinearOracle: loss(x+h) = loss(x) + gradient(x).h + 1/2 h.hessian.h for all x, h, with h.hessian.h >= 0; value_function and gradient_value_function are loss and gradient.", "quantifier": "every data matrix, target, x and h, with or without a prior", "why_tests_cant": "exact identity over all real data", "anchors": ["src/pysr3/linear/oracles.py:LinearOracle.loss", "src/pysr3/linear/oracles.py:LinearOracle.gradient", "src/pysr3/linear/oracles.py:LinearOracle.hessian"]}
{"id": "C32", "title": "SR3 value function is the partial minimum of the relaxed loss", "statement": "LinearOracleSR3.value_function(w) equals the minimum over x of loss(x, w), and the minimum is attained at the unique point h_inv(A'b + lam w).", "quantifier": "every data matrix (any rank), target, lam > 0 and w, with the identity relaxation matrix", "why_tests_cant": "a minimum over a continuum, for all data", "anchors": ["src/pysr3/linear/oracles.py:LinearOracleSR3.instantiate", "src/pysr3/linear/oracles.py:LinearOracleSR3.value_function", "src/pysr3/linear/oracles.py:LinearOracleSR3.loss"]}
{"id": "C33", "title": "SR3 value-function gradient is exact and lam-smooth", "statement": "LinearOracleSR3: value_function(w+h) = value_function(w) + gradient_value_function(w).h + q(h) with 0 <= q(h) <= lam/2 ||h||^2, and the gradient equals lam*(w - x*(w)).", "quantifier": "every data matrix, target, lam > 0, w and h", "why_tests_cant": "universal identity and bound over reals", "anchors": ["src/pysr3/linear/oracles.py:LinearOracleSR3.gradient_value_function", "src/pysr3/linear/oracles.py:LinearOracleSR3.value_function"]}
{"id": "C34", "title": "SR3 models never need to backtrack", "statement": "For every SR3 linear model with relaxation constant el > 0, the line search started at its default step 1/el accepts immediately, for every regularizer; so line-search and fixed stepping produce the same iterates.", "quantifier": "every dataset, regularizer, point and el > 0", "why_tests_cant": "acceptance must hold for all points and all prox outputs", "anchors": ["src/pysr3/solvers.py:PGDSolver.optimize", "src/pysr3/linear/oracles.py:LinearOracleSR3", "src/pysr3/linear/models.py:SimpleLinearModelSR3.instantiate"]}
{"id": "C35", "title": "Practical SR3 equals plain SR3", "statement": "For linear SR3 models, find_optimal_parameters (practical mode) returns exactly the vector PGDSolver with fixed step 1/el returns for the same tolerance, iteration budget and start.", "quantifier": "every dataset, regularizer, start, tolerance, iteration budget and el > 0", "why_tests_cant": "equivalence of two unbounded loops on all inputs", "anchors": ["src/pysr3/linear/oracles.py:LinearOracleSR3.find_optimal_parameters", "src/pysr3/solvers.py:PGDSolver.optimize", "src/pysr3/solvers.py:FakePGDSolver.optimize"]}
{"id": "C36", "title": "SR3 fitting converges for any exact-prox regularizer", "statement": "For linear SR3 models with a regularizer whose prox is an exact minimiser of a non-negative value, there is an iteration budget beyond which PGDSolver reports converged=True.", "quantifier": "every dataset, el > 0, tol > 0, starting point with finite penalty and every such (possibly nonconvex) regularizer", "why_tests_cant": "convergence is a statement about unbounded executions", "anchors": ["src/pysr3/linear/oracles.py:LinearOracleSR3", "src/pysr3/solvers.py:PGDSolver.optimize"]}
{"id": "C37", "title": "SR3 relaxation is a lower bound that tightens with el", "statement": "value_function of the SR3 oracle at w never exceeds the plain least-squares loss at w and does not decrease when el grows.", "quantifier": "every dataset, w, and 0 < el <= el'", "why_tests_cant": "comparison of two minima for all data", "anchors": ["src/pysr3/linear/oracles.py:LinearOracleSR3.value_function", "src/pysr3/linear/oracles.py:LinearOracle.loss"]}
{"id": "C38", "title": "Linear AIC/BIC count exactly the nonzero coefficients", "statement": "aic(x) = loss(x) + 2 k and bic(x) = loss(x) + log(n) k with k the number of nonzero coordinates of x; plain and SR3 oracles agree on them for every el.", "quantifier": "every dataset and x", "why_tests_cant": "must hold for all real vectors, including exact zeros", "anchors": ["src/pysr3/linear/oracles.py:LinearOracle.aic", "src/pysr3/linear/oracles.py:LinearOracle.bic", "src/pysr3/linear/oracles.py:LinearOracleSR3.aic", "src/pysr3/linear/oracles.py:LinearOracleSR3.bic"]}
{"id": "C39", "title": "Fitted sparse linear models obey their sparsity budget", "statement": "After fit, the coefficients of LinearL0Model / LinearL0ModelSR3 (both modes) have at most nnz nonzeros when max_iter_solver >= 1 and nnz >= 0; predict returns A.x row by row in the order given, raises NotFittedError before fit and AssertionError when the number of features differs.", "quantifier": "every dataset, hyperparameters, initial parameters", "why_tests_cant": "an invariant of the full fitting loop on all data", "anchors": ["src/pysr3/linear/models.py:LinearModel.fit_problem", "src/pysr3/linear/models.py:LinearModel.predict_problem", "src/pysr3/linear/models.py:LinearL0Model"]}
{"id": "C40", "title": "must_include_features survive linear regularization", "statement": "A LinearProblem built by from_dataframe with must_include_features, passed to fit_problem, fits a model in which those features are not regularized.", "quantifier": "every dataframe, feature list and must-include subset", "why_tests_cant": "relates a data-construction option to a fitting result for all inputs", "anchors": ["src/pysr3/linear/problems.py:LinearProblem.from_dataframe", "src/pysr3/linear/models.py:LinearModel.fit_problem"]}
{"id": "C41", "title": "A custom relaxation matrix is used", "statement": "LinearProblem.from_x_y(x, y, c=C) accepts a (p,p) array C and stores it as the relaxation matrix.", "quantifier": "every p >= 2 and C", "why_tests_cant": "statement about all matrices; the constructor's truth test fails for every one of them", "anchors": ["src/pysr3/linear/problems.py:LinearProblem.__init__"]}
{"id": "C42", "title": "Linear refits do not depend on history", "statement": "After any sequence of fit/predict calls on a linear model, the coefficients and predictions depend only on the constructor arguments and on the arguments of the last successful fit.", "quantifier": "every sequence of calls with any data", "why_tests_cant": "quantifies over call histories", "anchors": ["src/pysr3/linear/models.py:LinearModel.fit_problem", "src/pysr3/linear/models.py:LinearModel.predict_problem"]}
{"id": "C43", "title": "Grouping is a partition of the rows", "statement": "LMEProblem.from_x_y puts every row of the input in exactly one group, rows of a group are exactly the rows carrying its label, in their original order; groups are listed by increasing label without repetitions; group sizes are positive and add up to the number of rows.", "quantifier": "every valid matrix, labels and any interleaving of groups", "why_tests_cant": "combinatorial statement about all row orders", "anchors": ["src/pysr3/lme/problems.py:LMEProblem.from_x_y"]}
{"id": "C44", "title": "to_x_y inverts from_x_y", "statement": "For every valid x, y, columns_labels (no intercepts), LMEProblem.from_x_y(x, y, columns_labels).to_x_y() returns the same x, y and labels, for any interleaving of the groups.", "quantifier": "every valid input matrix, targets and labels", "why_tests_cant": "round trip on all inputs and all row permutations", "anchors": ["src/pysr3/lme/problems.py:LMEProblem.from_x_y", "src/pysr3/lme/problems.py:LMEProblem.to_x_y"]}
{"id": "C45", "title": "Design matrices contain the right columns", "statement": "In LMEProblem.from_x_y, the fixed (random) design of each group consists of a leading column of ones iff the corresponding intercept flag is set, followed by exactly the columns labelled fixed or fixed+random (random or fixed+random) in input order; the reported numbers of fixed/random effects are the widths of these designs.", "quantifier": "every labels list, both intercept flags, every group", "why_tests_cant": "all label patterns of all widths", "anchors": ["src/pysr3/lme/problems.py:LMEProblem.from_x_y", "src/pysr3/lme/problems.py:LMEProblem.__init__"]}
{"id": "C46", "title": "Invalid inputs are rejected, valid ones accepted", "statement": "from_x_y succeeds exactly when all labels are known, there is one label per column, exactly one group column and one variance column, and no variance is zero (given finite data, integer-valued group labels and consistent optional arguments).", "quantifier": "every matrix and label list", "why_tests_cant": "exactness of validation over all inputs", "anchors": ["src/pysr3/lme/problems.py:LMEProblem.from_x_y"]}
{"id": "C47", "title": "Regularization weights line up with coefficients", "statement": "The weight vectors of the problem have one entry per fixed effect and per random effect (intercepts first), equal to 0 exactly for the must-include ones.", "quantifier": "every labels list, intercept flags and must-include lists", "why_tests_cant": "alignment for all combinations of flags and lists", "anchors": ["src/pysr3/lme/problems.py:LMEProblem.from_x_y", "src/pysr3/lme/problems.py:LMEProblem.from_dataframe"]}
{"id": "C48", "title": "Column names line up with coefficients", "statement": "fixed_features_columns / random_features_columns have one name per fixed/random effect, the i-th name belonging to the i-th coefficient, so reported selections name the right covariates.", "quantifier": "every set of columns, labels and intercept flags", "why_tests_cant": "alignment for all combinations", "anchors": ["src/pysr3/lme/problems.py:LMEProblem.from_x_y", "src/pysr3/lme/model_selectors.py:select_covariates"]}
{"id": "C49", "title": "Problems can be traversed repeatedly and independently", "statement": "Iterating over an LMEProblem yields every group once, in order, no matter which other traversals have been started or abandoned, in particular nested loops over the same problem.", "quantifier": "every problem and every interleaving of traversals", "why_tests_cant": "interleavings of iterators are a history property", "anchors": ["src/pysr3/lme/problems.py:LMEProblem.__iter__", "src/pysr3/lme/problems.py:LMEProblem.__next__"]}
{"id": "C50", "title": "Per-group coefficients reproduce the predictions", "statement": "The dot product of a data row (in the column layout given by the labels) with its group's vector from get_per_group_coefficients equals the fixed part plus the random part of the model for that row.", "quantifier": "every labels list, beta, random effects and data row", "why_tests_cant": "all label patterns and real data", "anchors": ["src/pysr3/lme/problems.py:get_per_group_coefficients", "src/pysr3/lme/problems.py:random_effects_to_matrix", "src/pysr3/lme/models.py:LMEModel.fit_problem"]}
{"id": "C51", "title": "Generated problems carry the true coefficients", "statement": "For LMEProblem.generate with intercepts, the returned per-group coefficients b satisfy y = Xb + noise for the X of to_x_y() (plus intercept terms).", "quantifier": "every feature-label list and intercept flag", "why_tests_cant": "the generator is only tested without intercepts for this output", "anchors": ["src/pysr3/lme/problems.py:LMEProblem.generate", "src/pysr3/lme/problems.py:get_per_group_coefficients"]}
{"id": "C52", "title": "Generated noise uses the requested per-object variances", "statement": "When obs_var is a per-object array, LMEProblem.generate gives object j of group i the variance obs_var[start_i + j].", "quantifier": "every list of group sizes and array of variances", "why_tests_cant": "slicing must be right for all group-size lists", "anchors": ["src/pysr3/lme/problems.py:LMEProblem.generate"]}
{"id": "C53", "title": "Dataframe columns get the roles the caller asked for", "statement": "LMEProblem.from_dataframe assigns each named column exactly the requested role, the result does not depend on the order in which effects are listed, and unknown names are rejected with ValueError.", "quantifier": "every dataframe header and effect lists", "why_tests_cant": "all orders and name sets", "anchors": ["src/pysr3/lme/problems.py:LMEProblem.from_dataframe"]}
{"id": "C54", "title": "Mixed-model loss is the marginal negative log-likelihood", "statement": "LinearLMEOracle.loss(beta, gamma) equals sum over groups of 1/2 r'Omega^{-1}r + 1/2 log det Omega with Omega = Z diag(gamma) Z' + diag(obs_var), r = y - X beta, plus the prior.", "quantifier": "every problem, beta, gamma >= 0, positive variances", "why_tests_cant": "identity over all real data", "anchors": ["src/pysr3/lme/oracles.py:LinearLMEOracle.loss", "src/pysr3/lme/oracles.py:LinearLMEOracle._recalculate_cholesky"]}
{"id": "C55", "title": "Gradient and Hessian in the fixed effects are exact", "statement": "For fixed gamma, loss(beta+h) = loss(beta) + gradient_beta.h + 1/2 h.hessian_beta.h and the Hessian is positive semidefinite (LME oracle and its SR3 version).", "quantifier": "every problem, beta, gamma >= 0, h", "why_tests_cant": "exact identity over all data", "anchors": ["src/pysr3/lme/oracles.py:LinearLMEOracle.gradient_beta", "src/pysr3/lme/oracles.py:LinearLMEOracle.hessian_beta", "src/pysr3/lme/oracles.py:LinearLMEOracleSR3.gradient_beta"]}
{"id": "C56", "title": "Gradient in the variances is exact", "statement": "gradient_gamma(beta, gamma)_j is the partial derivative of loss with respect to gamma_j.", "quantifier": "every problem, beta, gamma >= 0, coordinate j", "why_tests_cant": "a limit statement for all data", "anchors": ["src/pysr3/lme/oracles.py:LinearLMEOracle.gradient_gamma"]}
{"id": "C57", "title": "Second derivatives involving the variances are exact", "statement": "hessian_gamma and hessian_beta_gamma are the partial derivatives of gradient_gamma and gradient_beta with respect to the variances; with take_only_positive_part=True the gamma Hessian is positive semidefinite.", "quantifier": "every problem, beta, gamma >= 0, pair of coordinates", "why_tests_cant": "limit statements for all data", "anchors": ["src/pysr3/lme/oracles.py:LinearLMEOracle.hessian_gamma", "src/pysr3/lme/oracles.py:LinearLMEOracle.hessian_beta_gamma"]}
{"id": "C58", "title": "optimal_beta minimises the loss in the fixed effects", "statement": "optimal_beta(gamma) is the minimiser of loss(., gamma) over all beta (including the oracle's prior); the SR3 version minimises the relaxed loss for the given tbeta.", "quantifier": "every problem with nonsingular normal equations, gamma >= 0, every competitor beta, every prior", "why_tests_cant": "global optimality over a continuum", "anchors": ["src/pysr3/lme/oracles.py:LinearLMEOracle.optimal_beta", "src/pysr3/lme/oracles.py:LinearLMEOracleSR3.optimal_beta"]}
{"id": "C59", "title": "Random effects are the best linear unbiased predictions", "statement": "optimal_random_effects(beta, gamma) returns for every group diag(gamma) Z' Omega^{-1} (y - X beta); a random effect with zero variance is exactly 0; the result minimises the penalised least-squares criterion of the group.", "quantifier": "every problem, beta and gamma whose entries are 0 or > 1e-10", "why_tests_cant": "matrix identity (Woodbury) over all data and all masks", "anchors": ["src/pysr3/lme/oracles.py:LinearLMEOracle.optimal_random_effects"]}
{"id": "C60", "title": "Cached factorisations are never stale", "statement": "The factors used by any oracle evaluation at gamma are those of the currently attached problem at gamma, for every sequence of evaluations, forget and instantiate calls.", "quantifier": "every call history", "why_tests_cant": "a history property of a cache", "anchors": ["src/pysr3/lme/oracles.py:LinearLMEOracle._recalculate_cholesky", "src/pysr3/lme/oracles.py:LinearLMEOracle.instantiate", "src/pysr3/lme/oracles.py:LinearLMEOracle.forget"]}
{"id": "C61", "title": "Packing and unpacking parameters is lossless", "statement": "x_to_beta_gamma and beta_gamma_to_x are mutually inverse for vectors of matching sizes; gradients of the stacked objective are the stacked gradients.", "quantifier": "every beta, gamma, x of any dimensions", "why_tests_cant": "all dimensions", "anchors": ["src/pysr3/lme/oracles.py:LinearLMEOracle.x_to_beta_gamma", "src/pysr3/lme/oracles.py:LinearLMEOracle.beta_gamma_to_x"]}
{"id": "C62", "title": "The fixed-to-random feature map is right", "statement": "After instantiate, the oracle maps fixed effect j to random effect i iff both come from the same column (or both are the intercept), and to nothing otherwise.", "quantifier": "every labels list and both intercept flags", "why_tests_cant": "all label patterns", "anchors": ["src/pysr3/lme/oracles.py:LinearLMEOracle.instantiate"]}
{"id": "C63", "title": "Interior-point iterations keep variances and multipliers positive", "statement": "In optimal_gamma_ip and find_optimal_parameters_ip, starting from positive multipliers and variances, every iterate keeps them strictly positive whatever Newton direction is computed, and the number of inner iterations is bounded.", "quantifier": "every problem and every sequence of Newton directions", "why_tests_cant": "an invariant over all executions", "anchors": ["src/pysr3/lme/oracles.py:LinearLMEOracle.optimal_gamma_ip", "src/pysr3/lme/oracles.py:LinearLMEOracleSR3.find_optimal_parameters_ip"]}
{"id": "C64", "title": "Projected-gradient variance updates stay feasible", "statement": "Every iterate of optimal_gamma_pgd is componentwise >= 0, given a nonnegative start, whatever direction and step the line search picks within its bound.", "quantifier": "every problem, start and sequence of directions and steps", "why_tests_cant": "an invariant over all executions", "anchors": ["src/pysr3/lme/oracles.py:LinearLMEOracle.optimal_gamma_pgd"]}
{"id": "C65", "title": "SR3 information criteria ignore the relaxation", "statement": "The information criteria of the SR3 mixed-model oracle equal those of the plain oracle on the same problem and parameters, whatever the relaxation constants.", "quantifier": "every problem, parameters and relaxation constants", "why_tests_cant": "equality over all reals", "anchors": ["src/pysr3/lme/oracles.py:LinearLMEOracleSR3"]}
{"id": "C66", "title": "Information criteria penalise the number of selected effects", "statement": "jones2010bic / muller_hui_2016ic as called by the models count as parameters exactly the nonzero coefficients.", "quantifier": "every fitted coefficient vector", "why_tests_cant": "depends on exact zeros in arbitrary positions", "anchors": ["src/pysr3/lme/oracles.py:LinearLMEOracle.jones2010bic", "src/pysr3/lme/oracles.py:LinearLMEOracle.muller_hui_2016ic", "src/pysr3/lme/models.py:SimpleLMEModel.get_information_criterion"]}
{"id": "C67", "title": "Effective sample size is at least the number of groups", "statement": "The effective sample size used by the Jones BIC is never smaller than the number of groups.", "quantifier": "every problem, gamma >= 0 and positive variances", "why_tests_cant": "an inequality over all correlation matrices", "anchors": ["src/pysr3/lme/oracles.py:LinearLMEOracle._jones2010n_eff"]}
{"id": "C68", "title": "The hat matrix maps observations to fitted values", "statement": "_hat_matrix(gamma) applied to the stacked observations gives the stacked fitted values X beta + Z u for beta = optimal_beta(gamma) and u = optimal_random_effects(beta, gamma).", "quantifier": "every problem and gamma", "why_tests_cant": "matrix identity on all data", "anchors": ["src/pysr3/lme/oracles.py:LinearLMEOracle._hat_matrix"]}
{"id": "C69", "title": "Covariance outputs are covariance matrices", "statement": "The per-group matrices computed for the covariance of random effects and of observations are symmetric.", "quantifier": "every problem and parameters", "why_tests_cant": "must hold for all data", "anchors": ["src/pysr3/lme/oracles.py:LinearLMEOracle.covariance_random_effects", "src/pysr3/lme/oracles.py:LinearLMEOracle.covariance_y"]}
{"id": "C70", "title": "SR3 mixed-model value-function gradient is the relaxation gap", "statement": "If the inner problem is solved exactly at w, then value_function(w') <= value_function(w) + gradient_value_function(w).(w'-w) + 1/2 sum_i lam_i (w'_i-w_i)^2 for every w' (so a step 1/max(lam) never increases the objective); and gradient_value_function is the derivative of the value function wherever inner minimisers vary continuously.", "quantifier": "every relaxed loss of the form f(x) + sum lam_i/2 (x_i-w_i)^2 with an exact inner minimiser", "why_tests_cant": "inequality over all pairs of points and all losses", "anchors": ["src/pysr3/lme/oracles.py:LinearLMEOracleSR3.gradient_value_function", "src/pysr3/lme/oracles.py:LinearLMEOracleSR3.value_function"]}
{"id": "C71", "title": "Predictions come back in the order of the input rows", "statement": "LMEModel.predict(x) returns, for the i-th row of x, the prediction of that row.", "quantifier": "every fitted model and every row order, in particular interleaved groups", "why_tests_cant": "shipped tests only use rows sorted by group", "anchors": ["src/pysr3/lme/models.py:LMEModel.predict", "src/pysr3/lme/models.py:LMEModel.predict_problem", "src/pysr3/lme/models.py:LMEModel.score"]}
{"id": "C72", "title": "Unseen groups are predicted from the fixed effects", "statement": "predict on data containing a group label not present in training returns X beta for the rows of that group.", "quantifier": "every fitted model and every new label", "why_tests_cant": "no test predicts an unseen group with random effects", "anchors": ["src/pysr3/lme/models.py:LMEModel.predict_problem"]}
{"id": "C73", "title": "warm_start continues from the previous fit", "statement": "Calling fit with warm_start=True on a fitted mixed model starts the optimisation from the previous coefficients; on an unfitted one it raises NotFittedError.", "quantifier": "every model state and data", "why_tests_cant": "a property of call histories", "anchors": ["src/pysr3/lme/models.py:LMEModel.fit_problem", "src/pysr3/linear/models.py:LinearModel.fit_problem"]}
{"id": "C74", "title": "Fitted mixed models satisfy their constraints", "statement": "After fit, every sparse mixed model solved with PGDSolver (max_iter_solver >= 1) has gamma >= 0; L0 models have at most nnz_tbeta + nnz_tgamma nonzeros split as requested and no variance without its fixed effect.", "quantifier": "every dataset, hyperparameters and inner-solver behaviour", "why_tests_cant": "an invariant of the complete fitting loop on all data", "anchors": ["src/pysr3/lme/models.py:LMEModel.fit_problem", "src/pysr3/lme/models.py:L0LmeModel", "src/pysr3/solvers.py:PGDSolver.optimize", "src/pysr3/regularizers.py:PositiveQuadrantRegularizer.prox"]}
{"id": "C75", "title": "R-squared score is bounded by one", "statement": "score returns 1 - u/v with u the residual and v the total sum of squares; it is at most 1 and equals 1 iff all predictions are exact (non-constant y).", "quantifier": "every y and predictions of equal length", "why_tests_cant": "inequality for all real data", "anchors": ["src/pysr3/lme/models.py:LMEModel.score"]}
{"id": "C76", "title": "Covariate selection returns the best-scoring model on the grid", "statement": "select_covariates reports the covariates of a grid model whose score is minimal, the first such, and works for every supported model name whenever there is at least one fixed and one random covariate.", "quantifier": "every dataframe, every sequence of scores", "why_tests_cant": "quantifies over all score sequences and grid shapes", "anchors": ["src/pysr3/lme/model_selectors.py:select_covariates", "src/pysr3/lme/model_selectors.py:get_model"]}
{"id": "C77", "title": "The L0 selection grid covers all sparsity levels", "statement": "get_model for L0 models enumerates every pair of budgets (p, q) with 1 <= q <= p, p up to the number of fixed and q up to the number of random effects.", "quantifier": "every problem size", "why_tests_cant": "all sizes", "anchors": ["src/pysr3/lme/model_selectors.py:get_model"]}
{"id": "C78", "title": "Selection does not modify the caller's arguments", "statement": "select_covariates leaves the covs dictionary passed by the caller unchanged.", "quantifier": "every covs and pre_sel_covs", "why_tests_cant": "side effects for all inputs", "anchors": ["src/pysr3/lme/model_selectors.py:select_covariates"]}
{"id": "C79", "title": "Generated problems can be turned into tables", "statement": "to_x_y of a problem made by generate returns one row per object: group number, drawn features, variance; and the generated answers.", "quantifier": "every feature labelling, intercept flags, group sizes and random draws", "why_tests_cant": "quantifies over all label lists and draws, including problems without random effects", "anchors": ["src/pysr3/lme/problems.py:LMEProblem.generate", "src/pysr3/lme/problems.py:LMEProblem.to_x_y"]}
{"id": "C80", "title": "value_function is the minimum of the relaxed objective", "statement": "LinearLMEOracleSR3.value_function(w) is at most the relaxed loss at every beta and every gamma >= 0 (with enough inner iterations); in particular a variance that starts at zero leaves zero when that lowers the relaxed loss.", "quantifier": "every problem, w and relaxation constants", "why_tests_cant": "optimality against all parameter vectors, and the failing starts (a zero entry of w) form a set that random tests never hit but every proximal step of a sparse regularizer produces", "anchors": ["src/pysr3/lme/oracles.py:LinearLMEOracleSR3.value_function", "src/pysr3/lme/oracles.py:LinearLMEOracleSR3.find_optimal_parameters_ip"]}
{"id": "C81", "title": "The SR3 inner solver never fails", "statement": "With positive observation variances, positive relaxation constants and a start with nonnegative variances, find_optimal_parameters_ip with its default settings returns without an exception: every matrix factorised is positive definite and every Newton system is nonsingular.", "quantifier": "every problem, start and number of iterations", "why_tests_cant": "an invariant over all iterations of a Newton-type method on all data", "anchors": ["src/pysr3/lme/oracles.py:LinearLMEOracleSR3.find_optimal_parameters_ip"]}
{"id": "C82", "title": "A fitted mixed model predicts its training table", "statement": "After a successful fit the coefficients have the sizes of the model and one set of random effects per group of the table, and predict on the training table returns one prediction per row.", "quantifier": "every model, dataset, starting point and state", "why_tests_cant": "relates the shapes produced by every branch of fitting and prediction", "anchors": ["src/pysr3/lme/models.py:LMEModel.fit_problem", "src/pysr3/lme/models.py:LMEModel.predict_problem"]}
{"id": "C83", "title": "Fitting a mixed model never fails on valid data", "statement": "With positive observation variances, documented hyperparameters and a start with nonnegative variances, fit of every plain or SR3 model (practical or not) returns without an exception.", "quantifier": "every dataset, regularizer, intercept setting and start", "why_tests_cant": "an invariant of two nested iterative solvers on all data", "anchors": ["src/pysr3/lme/models.py:LMEModel.fit_problem", "src/pysr3/solvers.py:PGDSolver.optimize", "src/pysr3/solvers.py:FakePGDSolver.optimize", "src/pysr3/lme/oracles.py:LinearLMEOracleSR3.find_optimal_parameters_ip"]}
{"id": "C84", "title": "Pre-selected covariates are kept out of the regularization", "statement": "With pre_sel_covs given, select_covariates returns for every model name, and exactly the pre-selected effects are exempt from the regularizer.", "quantifier": "every dataframe, candidate and pre-selected lists, every model name", "why_tests_cant": "relates positions in several lists for all inputs; the shipped tests pass an intercept in every call", "anchors": ["src/pysr3/lme/model_selectors.py:select_covariates", "src/pysr3/lme/problems.py:LMEProblem.from_x_y", "src/pysr3/regularizers.py:L1Regularizer.prox"]}
{"id": "C85", "title": "Reported names belong to the coefficients they are judged by", "statement": "select_covariates reports a fixed effect exactly if the fitted coefficient that multiplies its column is at least 0.01 in absolute value, with or without an intercept.", "quantifier": "every dataframe and model", "why_tests_cant": "an off-by-one in the pairing of names and coefficients changes only which names are printed", "anchors": ["src/pysr3/lme/model_selectors.py:select_covariates", "src/pysr3/lme/problems.py:LMEProblem.from_dataframe"]}
{"id": "C86", "title": "Selection does not depend on set iteration order", "statement": "The selected covariates do not depend on the order in which Python iterates the sets of effect names, nor on order or repetition in the candidate lists.", "quantifier": "every iteration order (hash seed) and all inputs", "why_tests_cant": "one run sees one hash seed", "anchors": ["src/pysr3/lme/model_selectors.py:select_covariates"]}
{"id": "C87", "title": "Evaluations of the SR3 value function do not depend on history", "statement": "The value and the gradient of the relaxed value function at a point are the same whatever points the oracle was evaluated at before.", "quantifier": "every dataset, prior, pair of points and history", "why_tests_cant": "the dependence goes through a hidden warm start and shows only for particular sequences of evaluations", "anchors": ["src/pysr3/lme/oracles.py:LinearLMEOracleSR3.value_function", "src/pysr3/lme/oracles.py:LinearLMEOracleSR3.gradient_value_function", "src/pysr3/lme/oracles.py:LinearLMEOracleSR3.find_optimal_parameters_ip"]}
{"id": "C88", "title": "A fit started without variances keeps them at zero", "statement": "Every SR3 fit, practical or not, that is started with all variances zero and returns, returns all variances zero, whatever the data are.", "quantifier": "every dataset, regularizer, prior, initializer and model state", "why_tests_cant": "an invariant of two nested iterative solvers on all data", "anchors": ["src/pysr3/lme/models.py:LMEModel.fit_problem", "src/pysr3/lme/oracles.py:LinearLMEOracleSR3.find_optimal_parameters_ip", "src/pysr3/solvers.py:PGDSolver.optimize", "src/pysr3/solvers.py:FakePGDSolver.optimize"]}
{"id": "C89", "title": "A practical SR3 fit without random effects returns its start", "statement": "Every practical SR3 fit of a model without random effects returns its starting point (ones by default), whatever the data and the regularizer are.", "quantifier": "every dataset, regularizer, start and model state, initializers other than EM", "why_tests_cant": "holds on all data and is not seen when every test has random effects", "anchors": ["src/pysr3/lme/models.py:LMEModel.fit_problem", "src/pysr3/lme/oracles.py:LinearLMEOracleSR3.find_optimal_parameters_ip", "src/pysr3/solvers.py:FakePGDSolver.optimize"]}
{"id": "C90", "title": "The converged flag of the practical solver is honest", "statement": "FakePGDSolver logs converged = True only if its last two iterates are within the tolerance.", "quantifier": "every oracle, regularizer, start and iteration budget", "why_tests_cant": "the flag is a constant; a test with an easy problem sees the right value", "anchors": ["src/pysr3/solvers.py:FakePGDSolver.optimize", "src/pysr3/linear/oracles.py:LinearOracleSR3.find_optimal_parameters"]}
{"id": "C91", "title": "The intercept is not regularized by default", "statement": "When no regularization weights are given, fit does not regularize the intercept.", "quantifier": "every table, regularizer and hyperparameters", "why_tests_cant": "the exempting branch exists but is dead code for every problem built by the library", "anchors": ["src/pysr3/lme/models.py:LMEModel.fit_problem", "src/pysr3/lme/problems.py:LMEProblem.from_x_y"]}
{"id": "C92", "title": "The relaxed variables of the practical mode minimise the relaxed objective", "statement": "Each update of the relaxed variables in the practical SR3 mode is the minimiser of ell/2 |z - x|^2 + penalty.", "quantifier": "every ell > 0, penalty weight and point", "why_tests_cant": "a wrong prox step still gives sparse solutions; only the optimality condition over all points shows it", "anchors": ["src/pysr3/lme/models.py:SimpleLMEModelSR3.instantiate", "src/pysr3/lme/oracles.py:LinearLMEOracleSR3.find_optimal_parameters_ip", "src/pysr3/solvers.py:FakePGDSolver"]}
{"id": "C93", "title": "Flip probabilities are the Gaussian posterior probabilities of the other sign", "statement": "flip_probabilities_beta returns for each fixed effect the mass of the opposite sign under the normal law with the coefficient as mean and the diagonal of the inverse Hessian of the model's negative log-likelihood as variance; it is 1/2 at zero, even in beta and decreasing in the absolute value. It raises if the Hessian is singular. This holds for plain and SR3 oracles.", "quantifier": "every dataset, prior, coefficients and nonnegative variances", "why_tests_cant": "an identity of measures on all real inputs", "anchors": ["src/pysr3/lme/oracles.py:LinearLMEOracle.flip_probabilities_beta", "src/pysr3/lme/oracles.py:LinearLMEOracleSR3.hessian_beta"]}
{"id": "C94", "title": "Condition numbers of the designs", "statement": "get_condition_numbers returns the condition numbers of the fixed and random designs (infinite exactly for rank-deficient ones).", "quantifier": "every dataset", "why_tests_cant": "needs linear algebra over all matrices; groups with few rows are usually not tested", "anchors": ["src/pysr3/lme/oracles.py:LinearLMEOracle.get_condition_numbers"]}
{"id": "C95", "title": "Criteria are available for models with an intercept", "statement": "get_information_criterion on the training table returns the criterion of every fitted model, with or without intercepts.", "quantifier": "every table, model and criterion", "why_tests_cant": "quantifies over all fitted models; the tests fit without intercepts", "anchors": ["src/pysr3/lme/models.py:SimpleLMEModel.get_information_criterion", "src/pysr3/lme/models.py:SimpleLMEModelSR3.get_information_criterion"]}
{"id": "C96", "title": "The de-marginalized loss is the conditional likelihood at the predicted random effects", "statement": "demarginalized_loss returns the negative log-likelihood of the observations given the predicted random effects, plus the prior. The marginal loss exceeds it by the penalty of the random effects and half the log-determinant of the shrinkage, so it is never above the marginal loss and equal to it without random effects.", "quantifier": "every dataset with positive observation variances, prior, beta, and gamma with entries zero or above 1e-10", "why_tests_cant": "an identity between a Cholesky-based and a solve-based computation on all real inputs", "anchors": ["src/pysr3/lme/oracles.py:LinearLMEOracle.demarginalized_loss", "src/pysr3/lme/oracles.py:LinearLMEOracle.loss", "src/pysr3/lme/oracles.py:LinearLMEOracle.optimal_random_effects"]}
{"id": "C97", "title": "The AIC is the published criterion", "statement": "vaida2005aic returns minus twice the (marginal or conditional) log-likelihood plus twice the published penalty: the corrected parameter count for the marginal version, n/(n-p-2) (rho - (rho-p)/(n-p)) for the conditional one.", "quantifier": "every dataset, prior, tolerance and point of the domain", "why_tests_cant": "a factor in the penalty changes values on every input; a test with a recorded value keeps it", "anchors": ["src/pysr3/lme/oracles.py:LinearLMEOracle.vaida2005aic", "src/pysr3/lme/oracles.py:LinearLMEOracle._hodges2001ddf"]}
{"id": "C98", "title": "Effective degrees of freedom are between the number of fixed effects and the number of observations", "statement": "_hodges2001ddf returns exactly when the fixed effects are identified, and its value is at least the number of fixed effects, at most the number of observations, and at most the number of fixed effects plus the number of groups times the number of nonzero variances.", "quantifier": "every dataset with positive observation variances and gamma with entries zero or above 1e-10", "why_tests_cant": "an inequality over all designs", "anchors": ["src/pysr3/lme/oracles.py:LinearLMEOracle._hodges2001ddf", "src/pysr3/lme/oracles.py:LinearLMEOracle._hat_matrix"]}
{"id": "C99", "title": "Criteria logged by a mixed-model fit belong to its coefficients", "statement": "After every successful fit the entries of the log for jones_bic, muller_ic, vaida_aic, vaida_aic_marginalized and flip_probabilities_beta, if requested, are the criteria of the returned coefficients, with the likelihood and prior of the fitted problem, counting the coefficients of absolute value at least the square root of the solver's tolerance.", "quantifier": "every model class, regularizer, prior, initializer, state, problem and fit arguments", "why_tests_cant": "quantifies over all fits and options; a stale or misplaced value in the log looks plausible", "anchors": ["src/pysr3/lme/models.py:LMEModel.fit_problem"]}
{"id": "C100", "title": "Losses logged by a plain mixed-model fit with line search never increase", "statement": "In every successful fit of a plain (not SR3) mixed-effects model with line search and 'loss' among the logged keys, every entry of the loss log is at most the previous one.", "quantifier": "every table or problem, prior, starting point, weights, tolerance, step, penalty strength", "why_tests_cant": "quantifies over all data, starting points and penalties and over all iterations of the run", "anchors": ["src/pysr3/solvers.py:PGDSolver.optimize", "src/pysr3/regularizers.py:L1Regularizer.value", "src/pysr3/lme/models.py:LMEModel.fit_problem"]}
{"id": "C101", "title": "Strengths tried by select_covariates are a fixed geometric grid", "statement": "For L1, CAD and SCAD, plain or SR3, get_model yields 100 models whose strengths start at 1e-4, grow by the factor 10^(1/11) and end at 1e5; every strength between 1e-4 and 1e5 is at most 10^(1/11) times larger than a tried one.", "quantifier": "every problem, the six names, every strength in the interval", "why_tests_cant": "quantifies over all strengths in an interval; a shorter or linear grid still selects something", "anchors": ["src/pysr3/lme/model_selectors.py:get_model"]}
{"id": "C102", "title": "A converged convex linear fit is nearly optimal", "statement": "If a linear fit without penalty or with the L1 penalty (plain, or SR3 non-practical) logs converged=True, its objective exceeds the objective at any point u by at most (tol^2/2 + tol*|x-u|)/t, with t the smaller of the step and half the inverse curvature (line search) or the fixed step.", "quantifier": "every data set, penalty strength and weights, tolerance, step rule, start and comparison point u", "why_tests_cant": "a guarantee against every competing point; tests compare with one reference solution on one data set", "anchors": ["src/pysr3/linear/models.py:LinearModel.fit_problem", "src/pysr3/solvers.py:PGDSolver.optimize"]}
{"id": "C103", "title": "Convex linear fits approach the optimum at rate 1/k", "statement": "If a linear fit without penalty or with the L1 penalty (plain, or SR3 non-practical) stops after k>0 iterations, converged or not, its objective exceeds the objective at any point u by at most |x0-u|^2/(2 t k).", "quantifier": "every data set, penalty strength and weights, budget, step rule, start and comparison point u", "why_tests_cant": "a rate over all budgets and data; a slower solver passes tests with generous budgets", "anchors": ["src/pysr3/linear/models.py:LinearModel.fit_problem", "src/pysr3/solvers.py:PGDSolver.optimize"]}
{"id": "C104", "title": "Plain convex linear fits converge within an explicit number of iterations", "statement": "A plain linear fit without penalty or with the L1 penalty, with line search or a fixed step of at most the inverse curvature, returns and logs converged=True whenever max_iter_solver exceeds 1 + 2*s*F(x0)/tol^2 (s the first step, F(x0) the objective at the start).", "quantifier": "every data set, penalty strength and weights, tolerance, start and budget above the bound", "why_tests_cant": "termination for all inputs cannot be shown by finitely many runs", "anchors": ["src/pysr3/linear/models.py:LinearModel.fit_problem", "src/pysr3/solvers.py:PGDSolver.optimize"]}
{"id": "C105", "title": "Fixed steps of the default length converge", "statement": "With stepping=\"fixed\" and no explicit step length, a plain linear fit without penalty converges for every data set once the budget is large enough.", "quantifier": "every data set", "why_tests_cant": "the tests use the line search or small standardised data, for which the default step 5e-2 happens to be short enough", "anchors": ["src/pysr3/linear/models.py:LinearModel.fit_problem", "src/pysr3/solvers.py:PGDSolver.optimize"]}
{"id": "C106", "title": "Information criteria on request are those of the fitted coefficients", "statement": "get_information_criterion of the linear models raises NotFittedError before a fit; afterwards it returns half the residual sum of squares plus 2 (aic) or log(rows) (bic) times the number of nonzero coefficients, raises ValueError for any other name or for data of another width, and equals the value logged by the fit on the training data, for plain and SR3 models alike.", "quantifier": "every data set, coefficient vector, criterion name, and every successful fit that logs the criterion", "why_tests_cant": "agreement between two code paths for all data; tests call it on a single fitted model", "anchors": ["src/pysr3/linear/models.py:SimpleLinearModel.get_information_criterion", "src/pysr3/linear/models.py:SimpleLinearModelSR3.get_information_criterion"]}
{"id": "C107", "title": "Noise levels of linear problems weight the observations", "statement": "A LinearProblem carries obs_std, the noise level of each observation; fits take it into account, i.e. unequal noise levels weight the residuals.", "quantifier": "every data set and vector of noise levels", "why_tests_cant": "the tests generate data with one common noise level, for which the weights cancel", "anchors": ["src/pysr3/linear/problems.py:LinearProblem.__init__", "src/pysr3/linear/models.py:LinearModel.fit_problem"]}
{"id": "C108", "title": "Generated linear problems have the promised data and are recovered without noise", "statement": "LinearProblem.generate returns features in [0,1] whose first column is an intercept, observations equal to features times true_x plus obs_std times the noise, unit regularizer weights and C = identity; without noise a plain line-search fit on it converges within an explicit number of iterations and its predictions are within an explicit multiple of the tolerance of the truth.", "quantifier": "every outcome of the random generators, true_x, obs_std, problem size (up to 1e14 entries for the recovery)", "why_tests_cant": "random data; tests use a few seeds", "anchors": ["src/pysr3/linear/problems.py:LinearProblem.generate", "src/pysr3/linear/models.py:LinearModel.fit_problem"]}
{"id": "C109", "title": "Default strengths of the linear classes mean no penalty", "statement": "The L0, L1, CAD and SCAD linear models (plain and SR3) with their default strength (nnz=None, lam=0) give the same result as the model without a penalty.", "quantifier": "every data set, solver arguments, starting point and logger keys", "why_tests_cant": "the tests always set a strength", "anchors": ["src/pysr3/linear/models.py:LinearL0Model.instantiate", "src/pysr3/linear/models.py:LinearSCADModelSR3.instantiate", "src/pysr3/regularizers.py:L0Regularizer.value"]}
{"id": "C110", "title": "Every linear class fits every problem", "statement": "fit_problem of every linear class returns a coefficient vector without raising and without NaN, for every data set and admissible constructor arguments.", "quantifier": "every class, data set, start, weights and constructor arguments", "why_tests_cant": "totality over all inputs and arguments", "anchors": ["src/pysr3/linear/models.py:LinearModel.fit_problem", "src/pysr3/regularizers.py:SCADRegularizer.prox"]}
{"id": "C111", "title": "With enough relaxation the relaxed mixed-model problem is convex", "statement": "If lg is at least the sum over groups and random effects of (z_j^T Lambda^-1 z_j)^2, the relaxed loss of LinearLMEOracleSR3 is jointly convex in (beta, gamma >= 0), lies above the tangents given by the oracle's gradients, and is strongly convex with the excess; with less relaxation it need not be.", "quantifier": "every data set with positive noise, prior, relaxed point, lb >= 0 and lg above the bound", "why_tests_cant": "convexity is a statement about all pairs of points", "anchors": ["src/pysr3/lme/oracles.py:LinearLMEOracleSR3.loss", "src/pysr3/lme/oracles.py:LinearLMEOracleSR3.gradient_gamma", "src/pysr3/lme/oracles.py:LinearLMEOracleSR3.gradient_beta"]}
{"id": "C112", "title": "Newton steps of the SR3 inner solver descend the barrier function", "statement": "Every pass of the loop of find_optimal_parameters_ip (default Hessian, no line search) from positive multipliers and variances moves (beta, gamma) in a direction of strict descent of the relaxed loss minus mu times the sum of log gamma, unless that function is stationary there; the matrix of the Newton system with the full Hessian is the derivative of the residual F.", "quantifier": "every data set with positive noise, prior, relaxed point, lb > 0, lg >= 0, and every state of the solver with positive multipliers and variances", "why_tests_cant": "a wrong sign or a missing block of the Newton system still often converges on test data", "anchors": ["src/pysr3/lme/oracles.py:LinearLMEOracleSR3.find_optimal_parameters_ip"]}
{"id": "C113", "title": "The EM initializer improves the start", "statement": "initializer='EM' replaces the start by the fixed effects that are optimal at the given variances and by variances estimated from the predicted random effects; the loss at the new start is not larger than at the old one.", "quantifier": "every data set with positive noise, every start with nonnegative variances, plain and SR3 oracles", "why_tests_cant": "the solver converges from a bad start as well, so tests of fitted models do not see the start", "anchors": ["src/pysr3/lme/models.py:LMEModel.fit_problem", "src/pysr3/lme/oracles.py:LinearLMEOracle.optimal_beta", "src/pysr3/lme/oracles.py:LinearLMEOracle.optimal_random_effects"]}
{"id": "C114", "title": "Practical SR3 fits return regularized coefficients", "statement": "The coefficients returned by a practical SR3 mixed model are an output of the proximal operator, so that for L0 models the budgets and the hierarchy hold.", "quantifier": "every practical SR3 L0 model, table, weights and start", "why_tests_cant": "tests use data for which the prox is applied in the last iterations", "anchors": ["src/pysr3/solvers.py:FakePGDSolver.optimize", "src/pysr3/lme/oracles.py:LinearLMEOracleSR3.find_optimal_parameters", "src/pysr3/lme/oracles.py:LinearLMEOracleSR3.find_optimal_parameters_ip"]}
{"id": "C115", "title": "The SR3 inner solver stops for one of the documented reasons", "statement": "find_optimal_parameters_ip makes passes while the residual or mu exceeds the tolerance and a variable moved by more than it in the last pass, never more than n_iter_inner, and returns the values after the last pass.", "quantifier": "every data set, prior, tolerance, budget, regularizer, and start with positive variances (no line search, constant relaxation)", "why_tests_cant": "which of the nested conditions ended a run is not observable from its result", "anchors": ["src/pysr3/lme/oracles.py:LinearLMEOracleSR3.find_optimal_parameters_ip"]}
{"id": "C116", "title": "Without column labels a mixed model is linear regression", "statement": "from_x_y without columns_labels accepts every table with a row and makes one group of all rows in order, with all columns as fixed effects, unit variances and no random effects; the loss is then the least-squares loss.", "quantifier": "every table with at least one row, every vector of answers, with and without an intercept", "why_tests_cant": "tests use tables with labels, and never compare with the linear oracle", "anchors": ["src/pysr3/lme/problems.py:LMEProblem.from_x_y", "src/pysr3/lme/oracles.py:LinearLMEOracle.loss"]}
{"id": "C117", "title": "The default constructors of the mixed models give working models", "statement": "Each of the ten mixed-model classes, constructed without arguments, fits every well-formed table without an exception and returns nonnegative variances; L0LmeModelSR3() keeps at most one fixed effect and one variance.", "quantifier": "all ten classes, every table accepted by from_x_y with positive noise variances, every admissible start", "why_tests_cant": "tests pass most constructor arguments explicitly and use a few generated problems", "anchors": ["src/pysr3/lme/models.py:SimpleLMEModel.__init__", "src/pysr3/lme/models.py:SimpleLMEModelSR3.__init__", "src/pysr3/lme/models.py:L0LmeModel.__init__", "src/pysr3/lme/models.py:L0LmeModelSR3.__init__", "src/pysr3/lme/models.py:L1LmeModel.__init__", "src/pysr3/lme/models.py:L1LmeModelSR3.__init__", "src/pysr3/lme/models.py:CADLmeModel.__init__", "src/pysr3/lme/models.py:CADLmeModelSR3.__init__", "src/pysr3/lme/models.py:SCADLmeModel.__init__", "src/pysr3/lme/models.py:SCADLmeModelSR3.__init__"]}
{"id": "C118", "title": "A mixed model with penalty strength zero is the model without a penalty", "statement": "L1, CAD and SCAD mixed models with lam = 0 return exactly the coefficients of the simple model with the same arguments, plain and SR3.", "quantifier": "every table, start, weights, and all solver parameters equal", "why_tests_cant": "tests compare penalized and simple models only through error rates", "anchors": ["src/pysr3/lme/models.py:L1LmeModel", "src/pysr3/lme/models.py:CADLmeModel", "src/pysr3/lme/models.py:SCADLmeModel", "src/pysr3/lme/models.py:L1LmeModelSR3", "src/pysr3/lme/models.py:SimpleLMEModel"]}
{"id": "C119", "title": "The order of the rows does not matter for mixed models", "statement": "Fitting a table with permuted rows leaves exactly the same coef_ (fixed effects, variances, random effects, per-group coefficients, group labels) as fitting the table.", "quantifier": "every model (plain and SR3, every regularizer, initializer, prior, stepping), every state before, every table and permutation, with or without column labels", "why_tests_cant": "tests fit each generated table once, in the order it was generated", "anchors": ["src/pysr3/lme/models.py:LMEModel.fit", "src/pysr3/lme/models.py:LMEModel.fit_problem", "src/pysr3/lme/problems.py:LMEProblem.from_x_y", "src/pysr3/lme/oracles.py:LinearLMEOracle.loss", "src/pysr3/lme/oracles.py:LinearLMEOracle.gradient_gamma", "src/pysr3/lme/oracles.py:LinearLMEOracleSR3.find_optimal_parameters_ip"]}
{"id": "C120", "title": "The names of the groups do not matter", "statement": "Renaming the group labels injectively (whole numbers to whole numbers) changes neither fixed effects nor variances, and each group keeps its random effects and coefficients under the new name.", "quantifier": "every model, every table, every injective renaming, also together with a permutation of the rows", "why_tests_cant": "generated problems always use the labels 0..m-1 in order", "anchors": ["src/pysr3/lme/models.py:LMEModel.fit", "src/pysr3/lme/models.py:LMEModel.fit_problem", "src/pysr3/lme/problems.py:LMEProblem.from_x_y", "src/pysr3/lme/problems.py:get_per_group_coefficients", "src/pysr3/lme/oracles.py:LinearLMEOracle.optimal_random_effects"]}
{"id": "C121", "title": "The order of the observations does not matter for linear models", "statement": "Fitting a linear problem with permuted rows returns exactly the same coefficients and the same log, or the same exception.", "quantifier": "every linear model (plain, SR3, practical SR3), every regularizer, prior, solver setting, start, weights and permutation", "why_tests_cant": "tests fit each generated problem once", "anchors": ["src/pysr3/linear/models.py:LinearModel.fit_problem", "src/pysr3/linear/oracles.py:LinearOracle.loss", "src/pysr3/linear/oracles.py:LinearOracle.gradient", "src/pysr3/linear/oracles.py:LinearOracleSR3.instantiate", "src/pysr3/linear/oracles.py:LinearOracleSR3.find_optimal_parameters"]}
{"id": "C122", "title": "The order and the signs of the features do not matter for linear models", "statement": "Reordering the features of a linear problem (with their weights and start) reorders the coefficients; multiplying features by -1 multiplies their coefficients by -1; negating the answers negates the coefficients. The log changes alike and the same exceptions are raised.", "quantifier": "every linear class (plain, SR3, practical), all constructor arguments, every problem, start, weights, permutation and choice of signs; changes of signs need an explicit start (the default one is all ones), L0 only changes of signs (ties)", "why_tests_cant": "tests fit each generated problem once, in the order of its columns", "anchors": ["src/pysr3/linear/models.py:LinearModel.fit_problem", "src/pysr3/linear/oracles.py:LinearOracle.gradient", "src/pysr3/linear/oracles.py:LinearOracleSR3.find_optimal_parameters", "src/pysr3/regularizers.py:L1Regularizer.prox", "src/pysr3/regularizers.py:CADRegularizer.prox", "src/pysr3/regularizers.py:SCADRegularizer.prox", "src/pysr3/solvers.py:PGDSolver.optimize"]}
{"id": "C123", "title": "Unpenalised linear fits commute with rotations of the features", "statement": "Replacing the features of a linear problem by orthogonal combinations of them turns the coefficients alike and leaves predictions for new data unchanged.", "quantifier": "SimpleLinearModel and SimpleLinearModelSR3, all settings, every problem, start, orthogonal matrix and table of new data", "why_tests_cant": "no test transforms the features", "anchors": ["src/pysr3/linear/models.py:LinearModel.fit_problem", "src/pysr3/linear/models.py:LinearModel.predict", "src/pysr3/linear/oracles.py:LinearOracleSR3.find_optimal_parameters", "src/pysr3/solvers.py:PGDSolver.optimize"]}
{"id": "C124", "title": "Fits of plain mixed models converge", "statement": "Although the marginal likelihood is not convex, a fit of a plain mixed model (no penalty, L1 or SCAD, no prior) returns and logs converged = True once max_iter exceeds 1 + 2 step (F0 - N) / (tol^2 (1 - step kappa)); its objective is at most the objective F0 of the start. N is half the sum of the logarithms of the observation variances, kappa the concavity of the penalty (0 unless SCAD).", "quantifier": "every table with positive observation variances, all 0/1 weights, every start with nonnegative variances, line search (curvature of the start's level set at most 1e14) or fixed steps (at most the inverse of that curvature)", "why_tests_cant": "tests run a handful of random problems for a fixed number of iterations and never look at whether the solver has converged", "anchors": ["src/pysr3/lme/models.py:LMEModel.fit_problem", "src/pysr3/lme/oracles.py:LinearLMEOracle.loss", "src/pysr3/lme/oracles.py:LinearLMEOracle.gradient_gamma", "src/pysr3/solvers.py:PGDSolver.optimize"]}
{"id": "C125", "title": "Converged fits of plain mixed models are nearly stationary", "statement": "When a fit of a plain mixed model logs converged = True, no coefficients with nonnegative variances at distance d have an objective lower by more than tol/t d + kappa/2 d^2 + R/2 (d + tol)^2 + L/2 tol^2, where t is the smallest step of the solver, R bounds the concavity of the log-determinant and L the curvature of the likelihood above.", "quantifier": "every successful fit with converged = True of a plain model without prior (no penalty, L1, SCAD), any table with positive observation variances, any start with nonnegative variances", "why_tests_cant": "a test can compare the result with finitely many other coefficients only", "anchors": ["src/pysr3/lme/models.py:LMEModel.fit_problem", "src/pysr3/lme/oracles.py:LinearLMEOracle.loss", "src/pysr3/lme/oracles.py:LinearLMEOracle.gradient_gamma", "src/pysr3/solvers.py:PGDSolver.optimize", "src/pysr3/regularizers.py:PositiveQuadrantRegularizer.prox", "src/pysr3/regularizers.py:ElasticRegularizer.prox"]}
{"id": "C126", "title": "The order of columns and the signs of features do not matter for fits of mixed models", "statement": "If a table has the columns of another one in a different order, with the signs of some features changed, and the target is multiplied by +1 or -1, then a fit with start and weights arranged in the same way gives every column the variance it had and the fixed effect and random effects it had with its sign times the sign of the target; the same for intercepts, groups and per-group coefficients. Models with the L0 penalty, which breaks ties by position, need the columns at their places.", "quantifier": "every plain or SR3 model without prior, every solver setting, every table accepted by fit, all orders of columns, all signs, all starts and weights", "why_tests_cant": "the space of orders and signs is infinite and the tests use one order of columns only", "anchors": ["src/pysr3/lme/models.py:LMEModel.fit_problem", "src/pysr3/lme/problems.py:LMEProblem.from_x_y", "src/pysr3/lme/oracles.py:LinearLMEOracle.gradient_gamma", "src/pysr3/lme/oracles.py:LinearLMEOracleSR3.find_optimal_parameters_ip", "src/pysr3/regularizers.py:SCADRegularizer.prox", "src/pysr3/regularizers.py:CADRegularizer.prox"]}
{"id": "C127", "title": "Predictions do not depend on the order of columns or signs of features", "statement": "After the two fits, tables whose columns correspond to each other in the same way have the same predictions up to the sign of the target, and the same score for corresponding targets.", "quantifier": "every pair of fits as in the previous property, every table for which the first model returns predictions", "why_tests_cant": "the space of orders and signs is infinite and the tests use one order of columns only", "anchors": ["src/pysr3/lme/models.py:LMEModel.predict", "src/pysr3/lme/models.py:LMEModel.score", "src/pysr3/lme/models.py:LMEModel.predict_problem", "src/pysr3/lme/models.py:LMEModel.fit_problem"]}
{"id": "C128", "title": "Problems survive the way through a data frame", "statement": "to_dataframe writes every problem made by from_x_y, and from_dataframe, given the columns named after the fixed and random roles as effects, gives the problem back: the same designs, variances, groups, answers, order and weights.", "quantifier": "every table and target accepted by from_x_y, with any number of columns of each role, with or without intercepts", "why_tests_cant": "the tests have no round trip through to_dataframe; the failure depends on repeated roles, the success must hold for all tables", "anchors": ["src/pysr3/lme/problems.py:LMEProblem.to_dataframe", "src/pysr3/lme/problems.py:LMEProblem.from_dataframe", "src/pysr3/lme/problems.py:LMEProblem.to_x_y", "src/pysr3/lme/problems.py:LMEProblem.from_x_y"]}
{"id": "C129", "title": "An intercept is a column of ones", "statement": "Fitting with fit_fixed_intercept and/or fit_random_intercept equals fitting without intercepts on the table extended by a leading column of ones whose role is fixed, random or fixed+random accordingly: the same exception or the same coefficients, variances, group deviations, history and criteria; predictions of the two fitted models on the two tables are the same.", "quantifier": "every model family without a prior, every table with at least one column, every role of the columns, every combination of the intercept switches with at least one on", "why_tests_cant": "a relational property of two fits over all tables and models; the tests run each form on a few generated problems and never compare them", "anchors": ["src/pysr3/lme/problems.py:LMEProblem.from_x_y", "src/pysr3/lme/models.py:LMEModel.fit_problem", "src/pysr3/lme/models.py:LMEModel.predict"]}
{"id": "C130", "title": "The solver's report in floating-point arithmetic", "statement": "In floating-point arithmetic with rounding, overflow and NaN, PGDSolver.optimize stops after at most max_iter passes, reports the number of passes made, and reports converged=True only when the returned point and the one before are finite numbers whose computed distance is at most tol.", "quantifier": "every floating-point format with the usual rounding contract, every oracle and regularizer, every configuration and starting point", "why_tests_cant": "the tests look at well-scaled problems that never overflow; the claim is about all rounding behaviours and all runs", "anchors": ["src/pysr3/solvers.py:PGDSolver.optimize", "src/pysr3/linear/oracles.py:LinearOracle.gradient", "src/pysr3/linear/models.py:SimpleLinearModel"]}
{"id": "C131", "title": "Constraints, budgets and shrinkage survive rounding", "statement": "In floating-point arithmetic the soft thresholds and the elastic wrapper never change a sign nor enlarge a number, give an exact zero inside the threshold, and at the end of every run no coordinate under the positivity constraint is below zero and at most nnz coordinates differ from zero, whatever the oracle returns.", "quantifier": "every floating-point format with the usual rounding contract, every nesting of L0, L1, CAD, positivity and elastic regularizers with parameters that are not negative, every oracle, configuration and starting point", "why_tests_cant": "rounding errors are never looked at by the tests; exact zeros and signs are asserted only on a few points", "anchors": ["src/pysr3/regularizers.py:L1Regularizer.prox", "src/pysr3/regularizers.py:CADRegularizer.prox", "src/pysr3/regularizers.py:L0Regularizer.prox", "src/pysr3/regularizers.py:PositiveQuadrantRegularizer.prox", "src/pysr3/regularizers.py:ElasticRegularizer.prox", "src/pysr3/solvers.py:PGDSolver.optimize"]}
{"id": "C132", "title": "Units of measurement do not matter to the mixed-model likelihood", "statement": "Measuring the target in another unit (y times c, observation variances times c squared) and the covariates in other units (column i times s_i, random-effect column j times t_j) shifts the loss by N log c, so that minimisers and stationary points correspond, changes the gradients, the optimal fixed effects, the random effects and the fitted values exactly by their units, and shifts the information criteria by a constant of the data.", "quantifier": "every data set, all nonzero factors s_i and t_j, every c > 0, all parameters (no prior)", "why_tests_cant": "no test refits data in other units, and the claim is about all factors and all parameters", "anchors": ["src/pysr3/lme/oracles.py:LinearLMEOracle.loss", "src/pysr3/lme/oracles.py:LinearLMEOracle.gradient_beta", "src/pysr3/lme/oracles.py:LinearLMEOracle.gradient_gamma", "src/pysr3/lme/oracles.py:LinearLMEOracle.optimal_beta", "src/pysr3/lme/oracles.py:LinearLMEOracle.optimal_random_effects", "src/pysr3/lme/oracles.py:LinearLMEOracle.muller_hui_2016ic"]}
{"id": "C133", "title": "Protocol of linear model objects: fit is all or nothing, predict follows", "statement": "LinearModel.fit either raises and leaves the fitted attributes as they were, or returns and stores one coefficient per column of the training table, computed from exactly the numbers passed (the first column of a two-dimensional target). Invalid arrays (no rows, no columns, NaN, unequal lengths) raise ValueError. Afterwards predict returns the linear predictor for every valid table with as many columns as the training table, raises AssertionError for another number of columns, ValueError for an invalid table, and NotFittedError on an object that was never fitted.", "quantifier": "every model configuration, every earlier history of the object, all arrays, all starting points", "why_tests_cant": "tests call fit once with good arrays and good starting points; failing refits and starting points of the wrong length are not tried", "anchors": ["src/pysr3/linear/models.py:LinearModel.fit", "src/pysr3/linear/models.py:LinearModel.fit_problem", "src/pysr3/linear/models.py:LinearModel.predict", "src/pysr3/linear/models.py:LinearModel.predict_problem", "src/pysr3/linear/models.py:LinearModel.check_is_fitted"]}
{"id": "C134", "title": "Starting points and warm_start of linear models are used as documented", "statement": "In LinearModel.fit_problem the solver starts at initial_parameters['x0'] if given, else at all ones; with warm_start=True it starts at the previous coefficients, overriding initial_parameters, and raises NotFittedError if the model was never fitted.", "quantifier": "every model configuration, every object, every problem, every starting point", "why_tests_cant": "fits that converge hide their starting point; no test refits an object or uses warm_start", "anchors": ["src/pysr3/linear/models.py:LinearModel.fit_problem"]}
{"id": "C135", "title": "Stratified splits cover the data and keep every group in the training part", "statement": "LMEStratifiedShuffleSplit.split yields get_n_splits() splits; in each one every row of the data lies in exactly one of the two parts, the test part has ceil(test_size * n) rows, each group's share of the training part is proportional up to less than one row, and every group occurs in the training part, so that a model fitted on it never meets a new group in the test part. It raises ValueError on invalid arrays, without a group column, for a test size outside (0, 1), and if a group has one row only.", "quantifier": "every table, every list of labels, every test size, all random states", "why_tests_cant": "the tests use one data set with equal groups and one seed; rare ties of the largest-remainder rule are not met", "anchors": ["src/pysr3/lme/problems.py:LMEStratifiedShuffleSplit.split", "src/pysr3/lme/problems.py:LMEStratifiedShuffleSplit.get_n_splits"]}
{"id": "C136", "title": "Constructors, get_params, set_params, clone and instantiate agree", "statement": "A model object holds exactly the constructor arguments, each under its own name with the value given or its default. get_params returns them. set_params gives the same object as constructing it with the merged arguments and rejects unknown names with ValueError, while the constructors ignore unknown keywords without notice. clone of a fitted model has the same parameters and is not fitted. instantiate uses each argument for what its name says, in all twenty classes, and the defaults are the documented ones.", "quantifier": "all twenty model classes, every set of keyword arguments, every object state", "why_tests_cant": "the tests construct a few models with a few arguments; an argument which a subclass forgets to pass to super().__init__ only shows in get_params or in the fitted values", "anchors": ["src/pysr3/linear/models.py:SimpleLinearModel.__init__", "src/pysr3/linear/models.py:LinearSCADModelSR3.__init__", "src/pysr3/lme/models.py:SimpleLMEModelSR3.__init__", "src/pysr3/lme/models.py:SCADLmeModelSR3.__init__", "src/pysr3/lme/models.py:SimpleLMEModelSR3.instantiate"]}
{"id": "C137", "title": "The mixed-model loss is the likelihood with the random effects integrated out", "statement": "For every problem with positive observation variances, all fixed effects and all nonnegative variances, exp(-(loss - prior)) is, up to the constant (2 pi)^(n/2), the product over the groups of the integral of the density of the observations given the random effects (independent normal errors with the given variances) over the distribution of the random effects (independent normal with mean zero and variances gamma; a zero variance means that the effect is zero).", "quantifier": "every problem, all beta, all gamma >= 0, every prior", "why_tests_cant": "an integral over random effects cannot be evaluated by a unit test except by simulation", "anchors": ["src/pysr3/lme/oracles.py:LinearLMEOracle.loss"]}
{"id": "C138", "title": "Predicted random effects are the conditional means given the data", "statement": "optimal_random_effects returns for each group the means of the random effects given the observations of the group; given the data each random effect is normal with that mean and variance gamma_j (1 - gamma_j z_j' Omega^-1 z_j).", "quantifier": "every problem with positive observation variances, all beta, all gamma whose entries are zero or above the threshold 1e-10 of the code", "why_tests_cant": "the conditional distribution is not computed anywhere in the code or in its tests", "anchors": ["src/pysr3/lme/oracles.py:LinearLMEOracle.optimal_random_effects"]}
{"id": "C139", "title": "Sign flip probabilities are posterior probabilities", "statement": "Given the variances, exp(-loss) normalises to a probability density of the fixed effects. If the coefficients minimise the loss at these variances, each coefficient is normal under this density, with the estimate as its mean and the diagonal entry of the inverse Hessian as its variance, and flip_probabilities_beta returns for each nonzero coefficient the probability under this density that it has the opposite sign.", "quantifier": "every problem, every prior, all gamma in the domain, every minimiser beta, nonsingular Hessian", "why_tests_cant": "a p-dimensional integral which no test evaluates", "anchors": ["src/pysr3/lme/oracles.py:LinearLMEOracle.flip_probabilities_beta"]}
{"id": "C140", "title": "Estimator protocol of mixed models", "statement": "fit on a mixed-model object is all or nothing: arrays that are not finite tables with one finite target per row raise ValueError and change nothing; a fit that raises any exception leaves coef_ and n_features_in_ as they were; a fit that returns sets coef_, logger_ and n_features_in_ (number of feature columns, plus one for an intercept) from these data alone, whatever was fitted before. predict raises NotFittedError before the first fit and ValueError on invalid tables, and otherwise uses the coefficients of the last fit.", "quantifier": "every model configuration, every state of the object, all arrays (with NaN and infinities), labels and arguments", "why_tests_cant": "needs a fit that fails halfway, after other fits", "anchors": ["src/pysr3/lme/models.py:LMEModel.fit", "src/pysr3/lme/models.py:LMEModel.fit_problem", "src/pysr3/lme/models.py:LMEModel.predict", "src/pysr3/lme/models.py:LMEModel.check_is_fitted"]}
{"id": "C141", "title": "Linear oracle objects evaluate the attached problem", "statement": "The evaluations of a linear oracle object are those of the problem attached last, by instantiate or by the constructor, whatever the object was used for before; without a problem, and after forget, they raise AttributeError. For SR3 oracles, at every moment, a number returned by value_function(w) is the minimum over x of loss(x, w) of the same object.", "quantifier": "all histories of instantiate (including calls that raise) and forget, all problems, points of any length, all lam", "why_tests_cant": "depends on what the object was used for before, including calls that failed", "anchors": ["src/pysr3/linear/oracles.py:LinearOracle.instantiate", "src/pysr3/linear/oracles.py:LinearOracle.forget", "src/pysr3/linear/oracles.py:LinearOracleSR3.instantiate", "src/pysr3/linear/oracles.py:LinearOracleSR3.forget", "src/pysr3/linear/oracles.py:LinearOracleSR3.value_function"]}
{"id": "C142", "title": "The true parameters minimise the expected loss", "statement": "If the observations have the mean X beta0 and the covariance Z diag(gamma0) Z^T + diag(obs_var) of the mixed model, the expectation of LinearLMEOracle.loss(beta, gamma) over the observations is smallest at (beta0, gamma0), over all beta and all gamma >= 0. Other parameters attain the minimum if and only if they give every group the same mean and covariance; with independent columns beta is then beta0.", "quantifier": "all groups, designs, positive observation variances, distributions of the observations with these two moments, all parameters", "why_tests_cant": "a test sees one sample of the observations; the claim is about the expectation over their distribution", "anchors": ["src/pysr3/lme/oracles.py:LinearLMEOracle.loss"]}
{"id": "C143", "title": "Generated problems follow the model the oracle assumes", "statement": "LMEProblem.generate, called with at least one random effect and drawing random effects with covariance diag(gamma) and errors with the variances it reports, returns problems whose groups, as an oracle reads them, have the mean and covariance of the mixed model at the true beta and gamma (columns of beta and gamma paired with the right columns of the design, errors with the reported variance); the expected loss of an oracle with the problem attached is smallest at the true coefficients.", "quantifier": "all labels, intercepts, features, group sizes, coefficients, distributions of the draws with these moments", "why_tests_cant": "a pairing mistake between generate and the oracle shows only statistically", "anchors": ["src/pysr3/lme/problems.py:LMEProblem.generate", "src/pysr3/lme/oracles.py:LinearLMEOracle.loss"]}
{"id": "C144", "title": "The law of generated observations has density exp(-loss)", "statement": "With normal random effects and errors the observations of every group of a generated problem have, with respect to Lebesgue measure, the density exp(-loss) / sqrt(2 pi)^n, where loss is that of the oracle for this group at the true coefficients: the loss is exactly the negative logarithm of the density of the data generate draws.", "quantifier": "all groups, designs, true coefficients (gamma >= 0), positive observation variances", "why_tests_cant": "a statement about a probability law, not about values on inputs", "anchors": ["src/pysr3/lme/problems.py:LMEProblem.generate", "src/pysr3/lme/oracles.py:LinearLMEOracle.loss"]}
{"id": "C145", "title": "Linear SR3 models with any accepted relaxation weight use the data", "statement": "For every relaxation weight el that the constructors of the linear SR3 models accept (0 is handled explicitly by instantiate), fitting a table with independent columns neither divides by zero nor produces NaN, and the coefficients depend on the target: without penalty, the points where the iteration stands still are exactly the least-squares solutions.", "quantifier": "all tables with independent columns, all targets, all el, all regularizers, stepping policies and starts", "why_tests_cant": "the boundary values of el are never fitted, and a wrong result (the starting vector) looks like a normal fit", "anchors": ["src/pysr3/linear/models.py:SimpleLinearModelSR3.instantiate", "src/pysr3/linear/oracles.py:LinearOracleSR3.instantiate", "src/pysr3/linear/oracles.py:LinearOracleSR3.find_optimal_parameters", "src/pysr3/linear/oracles.py:LinearOracleSR3.value_function"]}
{"id": "C146", "title": "Minimisers of the mixed-model loss find the true parameters", "statement": "If a design with positive error variances is observed in independent, identically distributed repetitions with the mean and the covariance of the mixed model, then with probability one parameters that minimise the oracle's loss (also together with a prior and a penalty of fixed strength, or only up to a vanishing error per repetition) converge to the true parameters as the number of repetitions grows, provided the design identifies them; in general every limit point gives each group the true mean and covariance.", "quantifier": "all designs, all true parameters with nonnegative variances, all distributions with these moments, all sequences of near-minimisers, all nonnegative penalties and priors", "why_tests_cant": "tests compare one fit on one simulated data set with the truth within a loose tolerance", "anchors": ["src/pysr3/lme/oracles.py:LinearLMEOracle.loss", "src/pysr3/lme/oracles.py:LinearLMEOracle.optimal_beta"]}
{"id": "C147", "title": "The mixed-model loss has a minimiser", "statement": "For every data set with positive error variances the oracle's loss attains its minimum over the parameters with nonnegative variances; with a prior and a lower semicontinuous penalty (or a closed constraint set) the penalised loss attains its minimum when the design identifies the fixed effects and contains every random effect. Without the constraint on the variances the loss can be unbounded below.", "quantifier": "all data sets with positive error variances, all designs, priors, lower semicontinuous penalties bounded below, closed constraint sets", "why_tests_cant": "existence of a minimiser over an unbounded set cannot be observed in finitely many evaluations", "anchors": ["src/pysr3/lme/oracles.py:LinearLMEOracle.loss", "src/pysr3/lme/priors.py:GaussianPriorLME.loss"]}
{"id": "C148", "title": "Criteria requested by name are the documented ones", "statement": "get_ic of a mixed-model oracle returns, for the two documented names, the criterion of that name of the unrelaxed model (jones2010bic ignores `marginalized`; vaida2005aic takes it), for plain and relaxed oracles alike; every other name raises ValueError before anything is computed.", "quantifier": "all names, data sets, priors, parameters, tolerances, relaxed and plain oracles", "why_tests_cant": "tests call the criteria directly, for the names they know", "anchors": ["src/pysr3/lme/oracles.py:LinearLMEOracle.get_ic", "src/pysr3/lme/oracles.py:LinearLMEOracleSR3.jones2010bic", "src/pysr3/lme/oracles.py:LinearLMEOracleSR3.vaida2005aic"]}
{"id": "C149", "title": "Converged convex linear fits are close to the true coefficients", "statement": "Data b = A x* + e: a converged fit of a plain linear model without penalty or with the L1 penalty predicts A x* with a squared error of at most four times the penalty of x* plus an error proportional to the tolerance (when no feature correlates with e by more than the strength of its penalty), and misses x* by at most 2/k (||A'e|| + lam ||w|| + tol/t) + tol/sqrt(t k) when ||A h||^2 >= k ||h||^2. With uncorrelated errors of variance at most sigma^2 this holds with rho in place of ||A'e|| except with probability sigma^2 ||A||_F^2 / rho^2.", "quantifier": "all designs, true coefficients, errors (or error distributions), weights, strengths, starting points, step rules of C102, tolerances", "why_tests_cant": "tests compare one fit on one simulated data set with the truth within a loose tolerance", "anchors": ["src/pysr3/linear/models.py:LinearModel.fit_problem", "src/pysr3/linear/oracles.py:LinearOracle.gradient_value_function", "src/pysr3/regularizers.py:L1Regularizer.prox", "src/pysr3/solvers.py:PGDSolver.optimize"]}
{"id": "C150", "title": "Converged convex linear fits satisfy the optimality conditions", "statement": "The point returned by a converged plain linear fit without penalty or with the L1 penalty satisfies the optimality conditions of its problem up to tol (1/t + L): the correlation of feature j with the residual is lam w_j times the sign of its coefficient if the coefficient is not exactly zero, and at most lam w_j in absolute value if it is.", "quantifier": "all problems, weights, strengths, starting points, step rules of C102, tolerances", "why_tests_cant": "tests check the returned point against the truth, not against the optimality conditions, and only for a few data sets", "anchors": ["src/pysr3/linear/models.py:LinearModel.fit_problem", "src/pysr3/regularizers.py:L1Regularizer.prox", "src/pysr3/solvers.py:PGDSolver.optimize"]}
{"id": "C151", "title": "Converged L1 fits select the true features", "statement": "Data b = A x* + e with s nonzero true coefficients and nearly uncorrelated features (squared lengths at least c, inner products at most theta, 16 s theta <= c): if no feature correlates with e by more than lam/2 (less the accuracy of the solver) the coefficients of a converged L1 fit are exactly zero outside the true features, are within 2 lam/c of the truth, and have the sign of every true coefficient larger than that. With uncorrelated errors the probability of failure is at most sigma^2 ||A||_F^2 / rho^2.", "quantifier": "all designs with these correlations, true coefficients, errors (or error distributions), strengths, starting points, step rules of C102, tolerances", "why_tests_cant": "tests check the selected features on a few simulated data sets with a threshold for what counts as zero", "anchors": ["src/pysr3/linear/models.py:LinearL1Model", "src/pysr3/regularizers.py:L1Regularizer.prox", "src/pysr3/solvers.py:PGDSolver.optimize"]}
{"id": "C152", "title": "Converged L1 fits with relaxation satisfy the optimality conditions and are close to the truth", "statement": "A converged fit of an SR3 linear model (not practical) without penalty or with the L1 penalty has relaxed coefficients v such that the correlations of the features with the residual of v are exactly el (v - x), and these are lam w_j sign(x_j) where x_j is not zero and at most lam w_j where it is, up to tol (1/t + el). With data b = A x* + e and ||A h||^2 >= k ||h||^2 it misses x* by at most (||A'e|| + ||lam w + d||)/k + ||lam w + d||/el, and under the conditions of C151, with the bias of the relaxation added, it selects exactly the true features.", "quantifier": "all problems, weights, strengths, relaxation weights, starting points, step rules of C102, tolerances, errors", "why_tests_cant": "tests compare one relaxed fit on one simulated data set with the truth", "anchors": ["src/pysr3/linear/models.py:SimpleLinearModelSR3", "src/pysr3/linear/oracles.py:LinearOracleSR3.gradient_value_function", "src/pysr3/regularizers.py:L1Regularizer.prox", "src/pysr3/solvers.py:PGDSolver.optimize"]}
{"id": "C153", "title": "Converged L0 fits are stationary and select the true features", "statement": "A converged fit of LinearL0Model(nnz=k) has a set T of k features outside which the coefficients are zero; the features in T are uncorrelated with the residual up to tol (1/t + L) and the others correlate by at most the smallest coefficient in T divided by the step length. With data b = A x* + e, at most k true features and nearly uncorrelated features, it selects all true features, with the right signs and within (16/15) Q/c of the truth, provided the true coefficients exceed (8/7)(1 + 1/(c t)) Q/c with Q the largest correlation with e; with exactly k true features it selects no other. The starting point does not matter.", "quantifier": "all designs with these correlations, true coefficients, errors, budgets, starting points, tie-breakings of the sort, step rules of C102, tolerances", "why_tests_cant": "the problem is not convex: a run may stop anywhere; tests look at a few data sets and one starting point", "anchors": ["src/pysr3/linear/models.py:LinearL0Model", "src/pysr3/regularizers.py:L0Regularizer.prox", "src/pysr3/regularizers.py:_take_only_k_max", "src/pysr3/solvers.py:PGDSolver.optimize"]}
{"id": "C154", "title": "Fits with nonconvex penalties converge with short fixed steps", "statement": "With fixed steps s < 1/L (1/el for SR3) a linear fit with any nonnegative penalty whose proximal operator is exact at the step length returns and reports converged=True whenever the budget of iterations exceeds 2 + (2 F(u) + ||u - x0||^2/s) / ((1/s - L) tol^2) for some u. This covers L0 with nonzero weights and SCAD with s lam w < rho - 1.", "quantifier": "all problems, starting points, weights, budgets, tolerances; plain and SR3 models", "why_tests_cant": "tests run a few fits with the default budget and do not look at the flag", "anchors": ["src/pysr3/linear/models.py:LinearModel.fit_problem", "src/pysr3/regularizers.py:L0Regularizer.prox", "src/pysr3/regularizers.py:SCADRegularizer.prox", "src/pysr3/solvers.py:PGDSolver.optimize"]}
{"id": "C155", "title": "Converged floating-point fits are accurate", "statement": "In every floating-point format with the standard rounding errors (relative error u, absolute error eta, the usual error of sums in any order) a run of the solver on the linear oracle, without penalty or with the L1 penalty, that reports convergence at a finite point satisfies the optimality conditions of the exact problem up to D (1/t + L) + E_j, where D is tol up to rounding, t the last step length, and E_j an explicit rounding error, proportional to u |A|'(|A||x| + |b|) for the gradient. With fixed steps the exact objective at the result exceeds every other value by at most the sum of these bounds times the distances, and the result is within 2/k times their norm of the exact minimiser when ||A h||^2 >= k ||h||^2.", "quantifier": "all formats with these errors, data, weights, strengths, starting points, step policies, tolerances, budgets; results that overflow or are NaN excluded", "why_tests_cant": "tests compare floating-point results with expected values on a few data sets and one machine", "anchors": ["src/pysr3/solvers.py:PGDSolver.optimize", "src/pysr3/linear/oracles.py:LinearOracle.gradient", "src/pysr3/regularizers.py:L1Regularizer.prox", "src/pysr3/regularizers.py:DummyRegularizer.prox"]}
{"id": "C156", "title": "Mixed-model L0 prox is a nearest admissible point", "statement": "L0RegularizerLME.prox returns a point nearest to its argument among those that keep the must-include coefficients, respect both budgets and have no variance for a random effect whose fixed effect is absent, and it minimises alpha*value(u) + 1/2||u-x||^2.", "quantifier": "every point, weights, budgets, feature map, tie-breaking; independent_beta_and_gamma on or off", "why_tests_cant": "optimality against all admissible points cannot be enumerated; the docstring calls the result a minimizer", "anchors": ["src/pysr3/regularizers.py:L0RegularizerLME.prox", "src/pysr3/regularizers.py:L0RegularizerLME.optimal_tbeta", "src/pysr3/regularizers.py:L0RegularizerLME.optimal_tgamma", "src/pysr3/regularizers.py:L0RegularizerLME.value"]}
{"id": "C157", "title": "With independent features convex linear fits converge linearly", "statement": "When the features are linearly independent (quadratic form of A'A at least mu > 0), a linear fit without penalty or with L1 has exactly one minimiser; the squared distance to it and the excess of the objective shrink at least by a factor 1 + mu*t per iteration (t the smallest step of the run; mu replaced by el*mu/(mu+el) for SR3), and converged=True is logged within a number of iterations logarithmic in the tolerance, computable from the data.", "quantifier": "every data set with independent features, penalty strength, weights, tolerance, start and budget; plain and SR3 models, line search or an admissible fixed step", "why_tests_cant": "a rate for all inputs cannot be observed on finitely many runs", "anchors": ["src/pysr3/linear/models.py:LinearModel.fit_problem", "src/pysr3/solvers.py:PGDSolver.optimize", "src/pysr3/linear/oracles.py:LinearOracle.gradient", "src/pysr3/linear/oracles.py:LinearOracleSR3.gradient_value_function"]}
{"id": "C158", "title": "The unit of the answers does not matter for linear models", "statement": "Multiplying the answers of a linear problem by u > 0, with the start, the solver tolerance and the parameters of the penalty expressed in the new unit, multiplies the coefficients, predictions and logged vectors by u, leaves step lengths, iteration counts and convergence flags unchanged and raises the same exceptions.", "quantifier": "every linear class (plain, SR3, practical), all constructor arguments without the logger key loss, every problem, explicit start, weights and u > 0", "why_tests_cant": "tests fit each generated problem once, in one unit", "anchors": ["src/pysr3/linear/models.py:LinearModel.fit_problem", "src/pysr3/linear/oracles.py:LinearOracle.loss", "src/pysr3/linear/oracles.py:LinearOracleSR3.find_optimal_parameters", "src/pysr3/regularizers.py:L0Regularizer.prox", "src/pysr3/regularizers.py:L1Regularizer.prox", "src/pysr3/regularizers.py:CADRegularizer.prox", "src/pysr3/regularizers.py:SCADRegularizer.prox", "src/pysr3/solvers.py:PGDSolver.optimize", "src/pysr3/solvers.py:FakePGDSolver.optimize"]}
{"id": "C159", "title": "Relaxed linear fits are nearly optimal without relaxation", "statement": "The coefficients of an SR3 linear fit reach the objective without relaxation up to the factor 1 + L/el (L the curvature of the data) of its minimum, plus the tolerance: for the minimisers of the relaxed objective with any nonnegative penalty and any admissible set, for converged fits and after k iterations without penalty or with L1. With independent features the relaxed minimiser is within sqrt(2*L*F/(el*mu)) of the unrelaxed one and tends to it as el grows.", "quantifier": "every data set, el > 0, penalty, weights, tolerance, start and budget", "why_tests_cant": "closeness to an optimum over all inputs and the limit in el cannot be tested", "anchors": ["src/pysr3/linear/models.py:LinearModel.fit_problem", "src/pysr3/linear/oracles.py:LinearOracleSR3.loss", "src/pysr3/linear/oracles.py:LinearOracleSR3.value_function", "src/pysr3/solvers.py:PGDSolver.optimize"]}
{"id": "C160", "title": "Converged L1 mixed-effects fits meet the optimality conditions and drop heavily penalised effects", "statement": "When a plain L1 mixed-effects fit logs converged = True, then within tol of its result there are coefficients at which the derivative of the negative log-likelihood balances the penalty coordinate by coordinate: plus eps*v it is within tol/t0 of -lam*w*sign(v) for every nonzero coefficient v, at most lam*w + tol/t0 in size for every zero fixed effect and at least -lam*w - tol/t0 for every zero variance. A fixed effect whose penalty exceeds sqrt(2*(F0 - N)*sum x^2/l) + tol/t0 and a variance whose penalty exceeds (F0 - N)*sum z^2/l + tol/t0 are returned as exactly 0 (F0 the objective at the start, N half the sum of log l).", "quantifier": "every table with positive observation variances, weights, strength, step, tolerance and start", "why_tests_cant": "optimality conditions hold over all data and the thresholds are for all inputs; tests see single fits", "anchors": ["src/pysr3/lme/models.py:LMEModel.fit_problem", "src/pysr3/lme/oracles.py:LinearLMEOracle.gradient_beta", "src/pysr3/lme/oracles.py:LinearLMEOracle.gradient_gamma", "src/pysr3/regularizers.py:L1Regularizer.prox", "src/pysr3/solvers.py:PGDSolver.optimize"]}
{"id": "C161", "title": "Converged SCAD and CAD fits do not shrink large coefficients and equal least squares on the true features", "statement": "When a plain SCAD fit (rho > 1, step*lam*w < rho - 1) logs converged = True, every correlation of a feature with the residual is within tol*(1/t0 + L) of the slope of the penalty at its coefficient: lam*w*sigma in the direction of a coefficient of size at most sigma (any smaller slope at 0), lam*w*(rho*sigma - |x|)/(rho - 1) between sigma and rho*sigma, and 0 above rho*sigma. The same holds for CAD with slope lam*w up to rho and 0 above. If moreover the features are nearly uncorrelated (16 n theta <= c), the response is A xs + e with noise correlations of at most half the slope at zero, and the nonzero true coefficients are well above the threshold, then the features kept are exactly the true ones, with the right signs, and the coefficients are within 16/15*tol*(1/t0 + L)/c of least squares on the true features.", "quantifier": "every problem, weights (unit weights for the true features), rho, sigma, lam, step rule, start, budget", "why_tests_cant": "a statement about the data-generating coefficients over all data and all parameters; tests see single fits", "anchors": ["src/pysr3/linear/models.py:LinearModel.fit_problem", "src/pysr3/regularizers.py:SCADRegularizer.prox", "src/pysr3/regularizers.py:CADRegularizer.prox", "src/pysr3/solvers.py:PGDSolver.optimize"]}
{"id": "C162", "title": "Sparse linear fits find the true features except with exponentially small probability", "statement": "Data b = A xs + e with nearly uncorrelated features and independent sub-Gaussian errors (normal errors in particular, as LinearProblem.generate draws them) with variance factors v_r; V bounds sum_r a_rj^2 v_r for every feature j. Under the conditions of C151 (L1), C153 (L0 with the right budget) and C161 (SCAD, CAD) on strengths and true coefficients, with the noise level replaced by t, the probability that the fit logs converged = True with a wrong set of features, a wrong sign or coefficients farther off than stated there is at most 2 n exp(-t^2/(2V)). For a sequence of data sets for which these numbers are summable all converged SCAD fits from some point on have exactly the true features, with probability one.", "quantifier": "every design, error law in the class, penalty parameters, start, step rule, budget", "why_tests_cant": "a statement about probabilities under all error laws of a class; a test sees finitely many seeds", "anchors": ["src/pysr3/linear/models.py:LinearModel.fit_problem", "src/pysr3/linear/problems.py:LinearProblem.generate", "src/pysr3/regularizers.py:L1Regularizer.prox", "src/pysr3/regularizers.py:L0Regularizer.prox", "src/pysr3/regularizers.py:SCADRegularizer.prox", "src/pysr3/regularizers.py:CADRegularizer.prox", "src/pysr3/solvers.py:PGDSolver.optimize"]}
{"id": "C163", "title": "LinearProblem.from_dataframe reads the named columns or raises KeyError", "statement": "With all named columns in the dataframe and c=None, from_dataframe returns the problem whose design has the feature columns in the order of the list, whose observations are the target column, whose regularization weight is 0 exactly for the features that must be included and 1 for the others, with the identity as relaxation matrix; the obs_std name is stored as it is, existing or not. It raises KeyError exactly when a feature or the target is missing; otherwise it fails only, with ValueError, when a relaxation matrix is given for two or more features. to_x_y returns the arrays the problem was made from. Every model gives the same fit on the dataframe problem and on the problem of its arrays.", "quantifier": "every dataframe, list of names, must-include list, c, model and fit arguments", "why_tests_cant": "the tests build one problem from a dataframe with all columns present", "anchors": ["src/pysr3/linear/problems.py:LinearProblem.from_dataframe", "src/pysr3/linear/problems.py:LinearProblem.to_x_y", "src/pysr3/linear/problems.py:LinearProblem.from_x_y", "src/pysr3/linear/models.py:LinearModel.fit_problem"]}
{"id": "C164", "title": "optimal_gamma_pgd goes downhill and stops at nearly stationary variances", "statement": "With positive observation variances and nonnegative gamma, the direction of optimal_gamma_pgd is minus the gradient at positive variances and its positive part at zero ones; along it the loss starts with slope minus the squared length of the direction. With a line search that minimises the loss over its interval (one exists for every problem) the method never fails, every line search strictly lowers the loss, and a run that ends before n_iter_inner ends at variances whose loss derivative is at most tol_inner in absolute value where they are positive and at least -tol_inner where they are zero.", "quantifier": "every problem with positive noise, prior, fixed effects, nonnegative start, tolerance, iteration limit", "why_tests_cant": "a claim about stationarity for all problems; tests compare one run with the other method", "anchors": ["src/pysr3/lme/oracles.py:LinearLMEOracle.optimal_gamma_pgd"]}
{"id": "C165", "title": "optimal_gamma_ip stops at nearly stationary variances", "statement": "If optimal_gamma_ip, started from nonnegative variances, returns before n_iter_inner iterations and not because of a zero step, the gradient G of the loss at the returned variances satisfies G_j >= -tol_inner and gamma_j G_j <= (10/9 + gamma_j) tol_inner for every j.", "quantifier": "every problem, start, line search, tolerance, iteration limit", "why_tests_cant": "a statement about all stopping points; tests compare the two methods on generated problems", "anchors": ["src/pysr3/lme/oracles.py:LinearLMEOracle.optimal_gamma_ip"]}
{"id": "C166", "title": "Converged SCAD mixed-effects fits meet the optimality conditions and keep no small effects", "statement": "Let step*lam*w < rho - 1. When a plain SCAD mixed-effects fit logs converged = True, then within tol of its result there are coefficients at which the derivative of the negative log-likelihood balances the slope of the penalty coordinate by coordinate: plus eps*v it is within tol/t0 of -lam*w*m(|v|)*sign(v) for every nonzero coefficient v, with m(a) = sigma up to sigma, (rho*sigma - a)/(rho - 1) up to rho*sigma and 0 beyond (no shrinkage of large effects), at most lam*w*sigma + tol/t0 in size for zero fixed effects and at least -lam*w*sigma - tol/t0 for zero variances. An effect with lam*w*sigma > B is returned as exactly 0 or at least rho*sigma - (rho - 1)*B/(lam*w) > sigma in size, where B = sqrt(2*(F0 - N)*sum x^2/l) + tol/t0 for fixed effects and (F0 - N)*sum z^2/l + tol/t0 for variances.", "quantifier": "every table with positive observation variances, weights, rho, sigma, lam, step, tolerance and start", "why_tests_cant": "optimality conditions hold over all data and the thresholds are for all inputs; tests see single fits", "anchors": ["src/pysr3/lme/models.py:LMEModel.fit_problem", "src/pysr3/lme/oracles.py:LinearLMEOracle.gradient_beta", "src/pysr3/lme/oracles.py:LinearLMEOracle.gradient_gamma", "src/pysr3/regularizers.py:SCADRegularizer.prox", "src/pysr3/solvers.py:PGDSolver.optimize"]}
{"id": "C167", "title": "Converged L0 and CAD mixed-effects fits meet the optimality conditions of the effects they keep", "statement": "When a plain L0 or CAD mixed-effects fit without prior logs converged = True, then within tol of its result there are coefficients at which the derivative G of the negative log-likelihood satisfies, with t the last step: (L0) |G + eps*v| <= tol/t for every nonzero or must-include effect v, for all fixed effects when the budget is not used up, and |G| <= (1/t + eps)*|v| + tol/t at every zero fixed effect for every kept penalised v; (CAD) |G + eps*v| <= tol/t for every effect beyond rho (no shrinkage), G + eps*v within tol/t of -lam*w*sign(v) for the other nonzero ones, |G| <= lam*w + tol/t at zero fixed effects and G >= -lam*w - tol/t at zero variances.", "quantifier": "every problem, start, weights, budgets, tie-breaking, rho, lam, step rule, tolerance; no assumption on the observation variances", "why_tests_cant": "conditions on derivatives over all data and selections; tests see single fits", "anchors": ["src/pysr3/lme/models.py:LMEModel.fit_problem", "src/pysr3/regularizers.py:L0RegularizerLME.prox", "src/pysr3/regularizers.py:CADRegularizer.prox", "src/pysr3/lme/oracles.py:LinearLMEOracle.gradient_beta", "src/pysr3/lme/oracles.py:LinearLMEOracle.gradient_gamma", "src/pysr3/solvers.py:PGDSolver.optimize"]}
{"id": "C168", "title": "L0 mixed-effects fits with small fixed steps stop", "statement": "Let the random effects that belong to a fixed effect be must-include (or no column have both kinds of effect). With fixed steps, step*L < 1 and a start that respects the budgets, a plain L0 mixed-effects fit without prior returns, logs converged = True whenever max_iter > 1 + 2*step*(F0 - N)/(tol^2*(1 - step*L)), its objective is at most F0 and its coefficients respect both budgets; L is at least sum x^2/l + 2*(F0 - N)*sum_groups sum_j (sum z^2/l)^2.", "quantifier": "every table with positive observation variances, 0/1 weights, budgets, tie-breaking, step, tolerance and admissible start", "why_tests_cant": "termination on a nonconvex feasible set for all data; a test can only run a few fits to the end", "anchors": ["src/pysr3/lme/models.py:LMEModel.fit_problem", "src/pysr3/regularizers.py:L0RegularizerLME.prox", "src/pysr3/regularizers.py:L0RegularizerLME.optimal_tbeta", "src/pysr3/regularizers.py:L0RegularizerLME.optimal_tgamma", "src/pysr3/solvers.py:PGDSolver.optimize"]}
{"id": "C169", "title": "Converged SR3 L1 mixed-effects fits are stationary up to tolerance and inner residual", "statement": "When an SR3 (not practical) L1 mixed-effects fit without prior, started from positive variances, logs converged = True, let (b, g) be its result, t the last step, (b', g') the point before it (within tol), and (beta, gamma, v, mu) the final state of the inner interior-point solver called at (b', g'). Then gamma >= 0, v > 0, and with Gb, Gg the derivatives of the negative log-likelihood at (beta, gamma) and r the norm of the residual of v*gamma = mu, Gb + ell*(beta - b') = 0, Gg + ell*(gamma - g') = v: |Gb + eps*b + lam*w*sign(b)| <= tol/t + r at nonzero fixed effects, |Gb| <= lam*w + tol/t + r at zero ones, |Gg - v + eps*g + lam*w| <= tol/t + r at positive variances, Gg - v >= -lam*w - tol/t - r at zero ones. With the warm start of the oracle (default) the inner solver stopped because its iterations were used up, or r and mu are at most its tolerance, or its last pass moved by at most its tolerance.", "quantifier": "every problem with positive observation variances, every step rule, tolerance, weights >= 0, lam >= 0, ell, inner settings", "why_tests_cant": "the result links two nested solvers over all data; tests compare selected effects on generated data", "anchors": ["src/pysr3/lme/models.py:SimpleLMEModelSR3.instantiate", "src/pysr3/lme/oracles.py:LinearLMEOracleSR3.gradient_value_function", "src/pysr3/lme/oracles.py:LinearLMEOracleSR3.find_optimal_parameters_ip", "src/pysr3/regularizers.py:L1Regularizer.prox", "src/pysr3/solvers.py:PGDSolver.optimize"]}
{"id": "C170", "title": "Generated problems can be fitted and predicted", "statement": "Every problem returned by LMEProblem.generate with positive observation variances can be fitted: every mixed-effects model with documented hyperparameters, no prior or a Gaussian prior whose parameters are named after effects of the problem with nonnegative deviations, and default weights returns, from any start of the right sizes with nonnegative variances, with nonnegative variances, one fixed effect per entry of the true beta and one vector of random effects per generated group; predict_problem on the same problem then gives, in the order of generation, for every generated row the fixed intercept and fixed features times the fitted fixed effects plus the random intercept and random features times the effects of the row's own group. (Does not hold for problems generated without random effects: fitting them raises.)", "quantifier": "every set of labels, intercepts, draws, models, step rules and starting points", "why_tests_cant": "tests fit generated problems of a few fixed shapes, all with random effects", "anchors": ["src/pysr3/lme/problems.py:LMEProblem.generate", "src/pysr3/lme/models.py:LMEModel.fit_problem", "src/pysr3/lme/models.py:LMEModel.predict_problem", "src/pysr3/lme/oracles.py:LinearLMEOracle.gradient_gamma"]}
{"id": "C171", "title": "Converged SR3 CAD, SCAD and L0 mixed-effects fits are stationary up to tolerance and inner residual", "statement": "When an SR3 (not practical) CAD, SCAD or L0 mixed-effects fit without prior, started from positive variances, logs converged = True, then with the last step t, the final state of the inner interior-point solver called at the point before it, the derivatives G of the negative log-likelihood at that state (less its positive multipliers for variances) and T = tol/t + its residual: CAD - |G + eps*v| <= T beyond rho, G + eps*v within T of -lam*w*sign(v) at the other nonzero coefficients, |G| <= lam*w + T at zero fixed effects, G >= -lam*w - T at zero variances; SCAD - the same with lam*w times the slope of the SCAD penalty, for steps with step*lam*w < rho - 1; L0 - |G + eps*v| <= T at kept and unpenalised coefficients and at all if the budget is not used up, |G| <= (1/t + eps)|v| + T at dropped fixed effects for every kept v, and the one-sided analogue for dropped variances whose fixed effects are kept.", "quantifier": "every problem with positive observation variances, every step rule, tolerance, weights >= 0, penalty parameters in the documented ranges, ell, inner settings", "why_tests_cant": "the result links two nested solvers over all data; tests compare selected effects on generated data", "anchors": ["src/pysr3/lme/models.py:SimpleLMEModelSR3.instantiate", "src/pysr3/lme/oracles.py:LinearLMEOracleSR3.gradient_value_function", "src/pysr3/lme/oracles.py:LinearLMEOracleSR3.find_optimal_parameters_ip", "src/pysr3/regularizers.py:CADRegularizer.prox", "src/pysr3/regularizers.py:SCADRegularizer.prox", "src/pysr3/regularizers.py:L0RegularizerLME.prox", "src/pysr3/solvers.py:PGDSolver.optimize"]}
{"id": "C172", "title": "Generated problems name their effects, and Gaussian priors apply to the named effects", "statement": "A problem returned by LMEProblem.generate has one name per fixed and per random effect, no name twice, in the order of the coefficients: the column multiplied by the coefficient is the column of ones for the name 'intercept' and the generated feature i for 'x{i}'. With random effects, a GaussianPriorLME is accepted by a fit of the problem exactly when every parameter is named after an effect and no deviation given to an effect is negative; it then adds to the loss, for every effect, the penalty given under that effect's name, and nothing for the others.", "quantifier": "every set of labels, intercepts, draws and dictionaries of prior parameters", "why_tests_cant": "tests use one prior parameter on one generated problem; the order and uniqueness of names for arbitrary labels is not tested", "anchors": ["src/pysr3/lme/problems.py:LMEProblem.generate", "src/pysr3/lme/priors.py:GaussianPriorLME.instantiate", "src/pysr3/priors.py:GaussianPrior.instantiate"]}
{"id": "C173", "title": "Gaussian priors apply to the named effects of problems with intercepts", "statement": "On a problem built by from_x_y with column names, a Gaussian prior adds to the loss the penalties given under the names of the effects, to the gradient their slopes and to the diagonal of the Hessian their curvatures, with or without intercepts. (Violated with an intercept, whose name is missing: with one further effect numpy broadcasts the prior, so that the intercept is penalised as well and the curvature is added to all entries of the Hessian; with two or more further effects every evaluation raises.)", "quantifier": "every table, list of labels and names, dictionary of prior parameters and vector of coefficients", "why_tests_cant": "tests use priors only on generated problems, where the intercept has a name", "anchors": ["src/pysr3/priors.py:GaussianPrior.loss", "src/pysr3/priors.py:GaussianPrior.gradient", "src/pysr3/priors.py:GaussianPrior.hessian", "src/pysr3/lme/problems.py:LMEProblem.from_x_y", "src/pysr3/lme/oracles.py:LinearLMEOracle.hessian_beta"]}
{"id": "C174", "title": "Outliers and missing values of generated problems do not change the answers", "statement": "As the comment in LMEProblem.generate says, missing values and outliers are put into the features after the answers are generated: the answers follow from the features drawn, the true coefficients, random effects and errors. (Violated: the mask is applied first, so the call equals a call without missing values and outliers for the changed features, and an outlier fits the model perfectly.)", "quantifier": "every set of arguments and random draws", "why_tests_cant": "no test uses chance_missing or chance_outlier", "anchors": ["src/pysr3/lme/problems.py:LMEProblem.generate"]}
{"id": "C175", "title": "true_rmse is the root mean squared error of the true model", "statement": "The entry true_rmse of the true parameters returned by LMEProblem.generate is the root of the mean of the squared residuals of the answers under the true coefficients and random effects. (Violated: it is the sum of their squares; the two agree exactly when all errors are zero or the sum is one divided by the number of objects.)", "quantifier": "every set of arguments and random draws", "why_tests_cant": "no test reads true_rmse", "anchors": ["src/pysr3/lme/problems.py:LMEProblem.generate"]}
{"id": "C176", "title": "generate uses the given true random effects", "statement": "LMEProblem.generate with true_random_effects uses them: as documented an array with one row per random effect and one column per group, or the pairs of group number and effects returned by another call. (Violated for the array: with a number of groups other than two every call raises, with two groups it is ignored. Pairs are used, and the effects returned by one call are those of another call given them.)", "quantifier": "every set of arguments and random draws", "why_tests_cant": "the test uses pairs of one generated problem only", "anchors": ["src/pysr3/lme/problems.py:LMEProblem.generate"]}
{"id": "C177", "title": "generate does not modify the list of group sizes", "statement": "LMEProblem.generate leaves the list groups_sizes of the caller as it is. (Violated exactly when it has an entry None: this is overwritten by the size drawn, and a second call with the same list does not draw again.)", "quantifier": "every list of sizes and all random draws", "why_tests_cant": "tests pass a new list in every call", "anchors": ["src/pysr3/lme/problems.py:LMEProblem.generate"]}
{"id": "C178", "title": "generate returns a problem for all documented arguments", "statement": "With one variance for all objects or one per group, LMEProblem.generate returns if and only if there is a fixed effect, given coefficients, variances and covariance matrix have the right sizes and the chances are probabilities; in particular it returns with default arguments. (The condition is proved; the default arguments violate it: whenever all drawn labels are 'random' the call raises ValueError.)", "quantifier": "every set of arguments and random draws of the promised shapes", "why_tests_cant": "tests use fixed seeds for which a fixed effect is drawn", "anchors": ["src/pysr3/lme/problems.py:LMEProblem.generate"]}
{"id": "C179", "title": "The log of a practical SR3 mixed-effects fit describes the run of the inner method", "statement": "Fitting with practical=True gives the same coefficients and the same other log entries whether or not the inner method logs, and the log holds under 'iteration' the number of passes made, under 'good_stopping_reason' whether the residual and mu are below the tolerance, under 'mu' and 'mu_effective' one value per pass that is not a correction step, with mu = 0.5 mu_effective. (Violated for problems without random effects: the method returns before writing any of the entries; and for keys given as a list or a set, when the fit raises.)", "quantifier": "every problem, model configuration, start and state of the model", "why_tests_cant": "tests check only that practical fits converge; the log entries are never read", "anchors": ["src/pysr3/lme/oracles.py:LinearLMEOracleSR3.find_optimal_parameters_ip", "src/pysr3/lme/models.py:LMEModel.fit_problem"]}
{"id": "C180", "title": "A practical SR3 L1 fit with a good stopping reason is stationary for the penalty times ell", "statement": "If a practical SR3 L1 mixed-effects fit logs good_stopping_reason = True (and at least one value of mu), the coefficients satisfy the optimality conditions of the likelihood with the elastic and L1 penalty multiplied by ell, up to the tolerance of the oracle and ell times the change of the coefficients since the last projection. In particular the effective strength of the penalty of a practical fit is ell * lam, not lam.", "quantifier": "every problem with positive observation variances, all weights, tolerances, starts with positive variances", "why_tests_cant": "tests look at which features are selected on simulated data", "anchors": ["src/pysr3/lme/oracles.py:LinearLMEOracleSR3.find_optimal_parameters_ip", "src/pysr3/lme/models.py:LMEModel.fit_problem"]}
{"id": "C181", "title": "The log of the proximal gradient solver is its trajectory", "statement": "If optimize returns with a tuple of distinct log keys, the entry x lists the start and the point after every pass (the last one is returned), direction, step_len and y list the negative gradient, the chosen step and the trial point of every pass (one entry fewer than x), x_prev lists infinity and then all points but the last, x0 the start once per logging; consecutive points are related by the prox step with the logged direction and step; iteration is the number of passes; a key that is not the name of a variable gets an empty list; a key that was not requested is absent.", "quantifier": "every oracle (also one with state), regularizer, configuration and start", "why_tests_cant": "tests read only the loss entry of the log", "anchors": ["src/pysr3/solvers.py:PGDSolver.optimize", "src/pysr3/logger.py:Logger.log"]}
{"id": "C182", "title": "Reading the table of a generated problem gives the problem back", "statement": "For a problem made by generate with at least one random effect, nonempty groups and nonzero variances, from_x_y applied to what to_x_y returns, with the intercepts of the generation, gives the same problem: designs, variances, answers, group labels, order of the objects, intercept, weights (not the names of the effects). Hence fit on the table and fit_problem on the problem end in the same way for every model without a prior.", "quantifier": "every list of labels, intercepts, all draws and sizes of the groups, every model", "why_tests_cant": "tests fit tables and problems separately, on a few seeds", "anchors": ["src/pysr3/lme/problems.py:LMEProblem.generate", "src/pysr3/lme/problems.py:LMEProblem.to_x_y", "src/pysr3/lme/problems.py:LMEProblem.from_x_y"]}
{"id": "C183", "title": "A practical SR3 CAD, SCAD or L0 fit with a good stopping reason is stationary for the penalty times ell", "statement": "If a practical SR3 CAD, SCAD or L0 mixed-effects fit logs good_stopping_reason = True (and at least one value of mu), then with the derivatives G of the negative log-likelihood at the last coefficients of the inner method (less its positive multipliers for variances), x the result and up to the tolerance of the oracle plus ell times the change of the coefficients since the last projection: CAD - G + ell*eps*x = 0 beyond rho, G + ell*(eps*x + lam*w*sign(x)) = 0 at the other nonzero coefficients, |G| <= ell*lam*w at zero fixed effects, G >= -ell*lam*w at zero variances; SCAD - the same with lam*w times the slope of the SCAD penalty, if lam*w < rho - 1 (the step of the projections is 1); L0 - G + ell*eps*x = 0 at kept and unpenalised coefficients and at all if the budget is not used up, |G| <= ell*(1 + eps)*|x| at dropped fixed effects for every kept x, and the one-sided analogue for dropped variances whose fixed effects are kept.", "quantifier": "every problem with positive observation variances, all weights >= 0, tolerances, penalty parameters in the documented ranges, ell >= 0, starts with positive variances", "why_tests_cant": "tests look at which features are selected on simulated data", "anchors": ["src/pysr3/lme/oracles.py:LinearLMEOracleSR3.find_optimal_parameters_ip", "src/pysr3/lme/models.py:LMEModel.fit_problem", "src/pysr3/regularizers.py:CADRegularizer.prox", "src/pysr3/regularizers.py:SCADRegularizer.prox", "src/pysr3/regularizers.py:L0RegularizerLME.prox"]}
{"id": "C184", "title": "Adding a combination of the fixed features to the answers moves a fit without penalty by exactly this combination", "statement": "For the simple linear models (plain and SR3, practical or not) and for the simple mixed-effects model: if the answers change by A c for a vector c of coefficients of the fixed features (with the intercept as a column of ones) and the start changes by c, the fitted coefficients change by exactly c, the variances, the random effects and the exceptions stay the same, and predictions change by the combination.", "quantifier": "all data, all c, all settings of the solvers", "why_tests_cant": "tests fit one target per design", "anchors": ["src/pysr3/linear/models.py:SimpleLinearModel", "src/pysr3/linear/models.py:SimpleLinearModelSR3", "src/pysr3/lme/models.py:SimpleLMEModel.instantiate", "src/pysr3/lme/models.py:LMEModel.fit_problem", "src/pysr3/lme/oracles.py:LinearLMEOracle.gradient_beta", "src/pysr3/lme/oracles.py:LinearLMEOracle.loss"]}
{"id": "C185", "title": "A fit interrupted by its iteration limit and resumed from its result gives the result of the uninterrupted fit", "statement": "Let the proximal gradient solver (fixed steps or line search) return after N iterations. For every k < N a run with max_iter = k from the same start returns after k iterations with converged = False, and a run from its result with the remaining budget returns the same point after N - k iterations with the same flag converged; the logged lists of the two runs, joined, are those of the uninterrupted run. So fits of the linear models (all but the practical SR3 ones) and of the plain mixed-effects models without the EM initializer can be interrupted and resumed by passing the coefficients as initial parameters.", "quantifier": "all oracles, regularizers, data, settings, starts, all k", "why_tests_cant": "tests never stop a fit early and go on", "anchors": ["src/pysr3/solvers.py:PGDSolver.optimize", "src/pysr3/linear/models.py:LinearModel.fit_problem", "src/pysr3/lme/models.py:LMEModel.fit_problem", "src/pysr3/logger.py:Logger.append"]}
{"id": "C186", "title": "Linear fits use the data only through cross products", "statement": "For every linear model (plain and SR3, all regularizers, priors and settings) the fits of two data sets with the same A'A and A'b, even with different numbers of observations, return the same coefficients or raise the same exception; everything logged is the same except the losses and the information criteria. If b'b is the same too, the losses and the aic are the same, and so is the bic when the numbers of observations agree.", "quantifier": "all data, starts, weights, settings", "why_tests_cant": "tests fit single data sets and never compare two with the same cross products", "anchors": ["src/pysr3/linear/oracles.py:LinearOracle.loss", "src/pysr3/linear/oracles.py:LinearOracle.gradient", "src/pysr3/linear/oracles.py:LinearOracleSR3.value_function", "src/pysr3/linear/oracles.py:LinearOracleSR3.gradient_value_function", "src/pysr3/linear/models.py:LinearModel.fit_problem"]}
{"id": "C187", "title": "Mixed-effects fits use each group only through weighted cross products", "statement": "Let the data of every group be replaced by other data, possibly with another number of observations, with the same cross products of the fixed features, the random features and the answers, weighted by the inverse observation variances (all positive). Then, at all beta and gamma, also outside the feasible set, loss changes by a constant and gradients, hessian_beta, optimal_beta and optimal_random_effects stay the same or raise the same exception; and every fit of a mixed-effects model, plain or SR3, leaves the same coef_. In particular replicates, observations with the same features, can be merged into their weighted mean with the variance 1 / (1 / l1 + 1 / l2).", "quantifier": "all problems, priors, regularizers, settings, starts", "why_tests_cant": "tests never compare fits of two data sets with the same cross products", "anchors": ["src/pysr3/lme/oracles.py:LinearLMEOracle.loss", "src/pysr3/lme/oracles.py:LinearLMEOracle.gradient_beta", "src/pysr3/lme/oracles.py:LinearLMEOracle.gradient_gamma", "src/pysr3/lme/oracles.py:LinearLMEOracle.optimal_beta", "src/pysr3/lme/oracles.py:LinearLMEOracle.optimal_random_effects", "src/pysr3/lme/models.py:LMEModel.fit_problem"]}
{"id": "C188", "title": "Asking for a log does not change the fit", "statement": "Let two models differ only in logger_keys, and let both fits of the same problem return. Then they leave the same coef_ and the same convergence flag. If the fit with a log returns then the fit without log keys returns.", "quantifier": "all linear and mixed-effects models, problems, keys", "why_tests_cant": "tests fit with one fixed set of keys", "anchors": ["src/pysr3/solvers.py:PGDSolver.optimize", "src/pysr3/solvers.py:FakePGDSolver.optimize", "src/pysr3/linear/models.py:LinearModel.fit_problem", "src/pysr3/lme/models.py:LMEModel.fit_problem", "src/pysr3/lme/oracles.py:LinearLMEOracleSR3.value_function"]}
{"id": "C189", "title": "A smaller tolerance or a larger iteration limit continues the same run", "statement": "Let two models fitted by the proximal gradient solver differ only in tol_solver and max_iter_solver, the second with tolerance at most as large and limit at least as large, and let the second fit return. Then the first makes at most as many iterations, its logged lists are the beginnings of those of the second, its coefficients are its last logged point, and equal those of the second if the numbers of iterations agree. For linear models without penalty or with the L1 penalty, with admissible steps, the second fit has an objective at most as large and is at least as near to every minimiser.", "quantifier": "all linear and mixed-effects models fitted by PGDSolver, problems, tolerances, limits", "why_tests_cant": "tests use one tolerance and one limit", "anchors": ["src/pysr3/solvers.py:PGDSolver.optimize", "src/pysr3/linear/models.py:LinearModel.fit_problem", "src/pysr3/lme/models.py:LMEModel.fit_problem"]}
{"id": "C190", "title": "A feature that is zero in all observations is not selected", "statement": "If a column of the feature matrix of a linear problem is zero, the fitted coefficient of that feature is zero, so that it is not reported as selected nor counted by AIC and BIC.", "quantifier": "all linear models without relaxation, problems with a zero column, converged fits", "why_tests_cant": "tests generate features without zero columns; the start of the iteration is a vector of ones", "anchors": ["src/pysr3/linear/models.py:LinearModel.fit_problem", "src/pysr3/regularizers.py:CADRegularizer.prox", "src/pysr3/regularizers.py:L0Regularizer.prox", "src/pysr3/regularizers.py:L1Regularizer.prox", "src/pysr3/regularizers.py:SCADRegularizer.prox"]}
{"id": "C191", "title": "Features that are equal up to sign get coefficients that are equal up to sign", "statement": "If two features have the same values in all observations (or opposite ones), the same role and the same penalty weight, their fitted coefficients are the same (or opposite), in mixed models their variances are the same and their random effects are the same (or opposite).", "quantifier": "all linear and mixed models, all problems with such a pair of features", "why_tests_cant": "tests generate independent features; that the two coordinates stay together is a fact about every iteration of the solver", "anchors": ["src/pysr3/linear/models.py:LinearModel.fit_problem", "src/pysr3/lme/models.py:LMEModel.fit_problem", "src/pysr3/regularizers.py:L0Regularizer.prox", "src/pysr3/solvers.py:PGDSolver.optimize"]}
{"id": "C192", "title": "Effects without data in mixed models are zero", "statement": "If a feature is zero in all observations, a mixed-model fit returns and gives it a zero fixed effect and a zero variance, so that it is not counted as selected; a random effect whose feature is zero in all observations of a group is predicted as zero in this group.", "quantifier": "all mixed models, tables with columns that are zero everywhere or within groups", "why_tests_cant": "tests generate features without zero columns; that a coefficient is never moved to zero is a fact about every iteration", "anchors": ["src/pysr3/lme/models.py:LMEModel.fit_problem", "src/pysr3/lme/oracles.py:LinearLMEOracle.optimal_random_effects", "src/pysr3/lme/oracles.py:LinearLMEOracle.optimal_beta", "src/pysr3/lme/oracles.py:LinearLMEOracle.gradient_gamma", "src/pysr3/regularizers.py:ElasticRegularizer.prox"]}
{"id": "C193", "title": "Evaluations of the SR3 oracle are repeatable up to the residual of the inner solver", "statement": "With enough relaxation the problem of the inner solver has exactly one solution, and two evaluations of the gradient of the value function at the same point by oracles with different histories (warm starts) differ by no more than the residuals and barrier parameters at which their inner loops end allow; within the tolerance if both loops converge.", "quantifier": "all data with positive noise, priors, points, relaxation constants above the convexity bound, histories with nonnegative variances, tolerances and budgets", "why_tests_cant": "tests evaluate a few points with new oracles; existence and uniqueness of a minimiser over a continuum and a bound for all histories cannot be sampled", "anchors": ["src/pysr3/lme/oracles.py:LinearLMEOracleSR3.find_optimal_parameters_ip", "src/pysr3/lme/oracles.py:LinearLMEOracleSR3.gradient_value_function", "src/pysr3/lme/oracles.py:LinearLMEOracleSR3.loss", "src/pysr3/lme/oracles.py:LinearLMEOracleSR3.gradient_gamma"]}
{"id": "C194", "title": "The SR3 gradient is that of the exact value function up to the residual of the inner solver", "statement": "With enough relaxation the exact value function (the minimum of the relaxed loss over parameters with nonnegative variances) exists and is differentiable, with the relaxation gap at the minimiser as gradient, and the minimiser depends on the relaxed variables in a Lipschitz continuous way; gradient_value_function returns this gradient up to an error bounded by the residual and the barrier parameter at which the inner loop ends, and within an explicit multiple of the tolerance if it converges.", "quantifier": "all data with positive noise, priors, points, relaxation constants above the convexity bound, starting variances, tolerances and budgets", "why_tests_cant": "differentiability of a minimum over a continuum and error bounds for all runs cannot be tested; the tests compare numbers at a few points with loose tolerances", "anchors": ["src/pysr3/lme/oracles.py:LinearLMEOracleSR3.find_optimal_parameters_ip", "src/pysr3/lme/oracles.py:LinearLMEOracleSR3.gradient_value_function", "src/pysr3/lme/oracles.py:LinearLMEOracleSR3.value_function", "src/pysr3/lme/oracles.py:LinearLMEOracleSR3.loss"]}
{"id": "C195", "title": "SR3 fits with fixed steps stop unless an inner solve fails", "statement": "A fit of an SR3 mixed-effects model with fixed steps of at most 1/ell, enough relaxation, the warm start of the inner solver and an inner tolerance that is small against the tolerance of the fit returns and, with an explicit number of iterations (a constant divided by the squared tolerance), logs converged = True, unless at one of its passes the inner solver used up its own iterations or stopped on a last pass that did not move.", "quantifier": "all tables with positive noise, penalties (none, L1, SCAD), weights, starts with positive variances, tolerances, relaxation constants above the convexity bound and logger settings", "why_tests_cant": "a bound on the number of iterations for all data needs a proof; the tests only fit a few generated problems and check that the result is good enough", "anchors": ["src/pysr3/solvers.py:PGDSolver.optimize", "src/pysr3/lme/oracles.py:LinearLMEOracleSR3.gradient_value_function", "src/pysr3/lme/oracles.py:LinearLMEOracleSR3.find_optimal_parameters_ip", "src/pysr3/lme/models.py:LMEModel.fit_problem", "src/pysr3/lme/models.py:SimpleLMEModelSR3.instantiate"]}
{"id": "C196", "title": "The relaxed mixed-effects objective is a lower bound that tightens with the relaxation constants", "statement": "With enough relaxation, the least relaxed loss around a point is at most the loss at the point and at least the loss minus the squared gradient over 2 m, where m is the excess of the relaxation constants over the convexity bound; it does not decrease when the constants grow. The number value_function returns obeys the same bounds up to the residual and the barrier parameter of the inner solver, and a minimiser of the relaxed objective plus any penalty minimises the plain objective plus that penalty up to the same gap.", "quantifier": "all tables with positive noise, priors, points with nonnegative variances, penalties, relaxation constants above the convexity bound and settings of the inner solver", "why_tests_cant": "quantifies over all points and relaxation constants; the tests evaluate the oracle at single points and constants", "anchors": ["src/pysr3/lme/oracles.py:LinearLMEOracleSR3.value_function", "src/pysr3/lme/oracles.py:LinearLMEOracleSR3.loss", "src/pysr3/lme/oracles.py:LinearLMEOracleSR3.find_optimal_parameters_ip", "src/pysr3/lme/oracles.py:LinearLMEOracle.gradient_gamma", "src/pysr3/lme/oracles.py:LinearLMEOracle.gradient_beta"]}
{"id": "C197", "title": "SR3 fits that report convergence have stopped near a stationary point", "statement": "An SR3 mixed-effects fit (no penalty, L1 or SCAD) that logs converged = True returns coefficients such that no others with nonnegative variances, at distance r, have a relaxed objective lower by more than (tol/step + ell d) r plus explicit second-order terms, d being the error of the last inner solve; for the plain objective the squared gradient over 2 m is added. With the warm start d is bounded through the inner tolerance unless that solve ran out of passes or did not move on its last one.", "quantifier": "all tables with positive noise and a random effect, penalties, weights, starts with positive variances, step rules, tolerances, logger settings and relaxation constants above the convexity bound", "why_tests_cant": "compares the result with all other coefficients on all data; the tests check the quality of a few fits on generated data", "anchors": ["src/pysr3/solvers.py:PGDSolver.optimize", "src/pysr3/lme/oracles.py:LinearLMEOracleSR3.gradient_value_function", "src/pysr3/lme/oracles.py:LinearLMEOracleSR3.find_optimal_parameters_ip", "src/pysr3/lme/models.py:LMEModel.fit_problem", "src/pysr3/lme/models.py:SimpleLMEModelSR3.instantiate"]}
{"id": "C198", "title": "Tables with different groups can be stacked: losses and gradients add up, random effects stay", "statement": "If from_x_y accepts two tables with the same columns and no common group, it accepts one below the other. At any coefficients the oracle on the stacked table then has the loss, the gradient in beta and the gradient in gamma that are the sums of those on the parts, an error on it is an error on a part, and each group keeps the random effects it has in its part.", "quantifier": "all pairs of tables of any size, labels, intercept flags, must-include lists and coefficients", "why_tests_cant": "relates three runs on arbitrary tables; the tests use single generated tables", "anchors": ["src/pysr3/lme/problems.py:LMEProblem.from_x_y", "src/pysr3/lme/oracles.py:LinearLMEOracle.loss", "src/pysr3/lme/oracles.py:LinearLMEOracle.gradient_beta", "src/pysr3/lme/oracles.py:LinearLMEOracle.gradient_gamma", "src/pysr3/lme/oracles.py:LinearLMEOracle.optimal_random_effects"]}
{"id": "C199", "title": "Selecting more effects costs more in the information criteria", "statement": "At a loss that is not smaller, a model with at least as many selected fixed and random effects has at least the same value of jones2010bic, muller_hui_2016ic and of both versions of vaida2005aic.", "quantifier": "all data sets, priors, tolerances and pairs of coefficients", "why_tests_cant": "compares all pairs of models; the tests look at the criteria of single fits with many observations", "anchors": ["src/pysr3/lme/oracles.py:LinearLMEOracle.vaida2005aic", "src/pysr3/lme/oracles.py:LinearLMEOracle.jones2010bic", "src/pysr3/lme/oracles.py:LinearLMEOracle.muller_hui_2016ic"]}
{"id": "C200", "title": "A feature that is zero in all observations is not selected by linear models with relaxation", "statement": "If a column of the feature matrix of a linear problem is zero, the coefficient of that feature fitted by an SR3 model, exact or practical, is zero.", "quantifier": "all linear SR3 models in both modes, problems with a zero column, relaxation constants, starts", "why_tests_cant": "tests generate features without zero columns; the start of the iteration is a vector of ones", "anchors": ["src/pysr3/linear/models.py:LinearModel.fit_problem", "src/pysr3/linear/oracles.py:LinearOracleSR3.gradient_value_function", "src/pysr3/linear/oracles.py:LinearOracleSR3.find_optimal_parameters", "src/pysr3/regularizers.py:L1Regularizer.prox", "src/pysr3/regularizers.py:CADRegularizer.prox"]}
{"id": "C201", "title": "A stronger L1 penalty gives smaller coefficients and a worse fit", "statement": "Of two converged fits of the same linear problem with the same weights and L1 strengths lam1 < lam2, the second has the smaller weighted sum of absolute coefficients and the first the smaller loss (with relaxation: value of the relaxed loss), up to the stopping errors e1, e2 of C102: the sum grows by at most (e1+e2)/(lam2-lam1), the loss by at most e1 + lam1 (e1+e2)/(lam2-lam1).", "quantifier": "every linear problem, pair of strengths lam1 < lam2 including no penalty, weights, tolerances, step rules, budgets and starts (possibly different for the two fits), plain and SR3 models", "why_tests_cant": "a test compares finitely many strengths on one data set; the claim relates every pair of fits", "anchors": ["src/pysr3/linear/models.py:LinearModel.fit_problem", "src/pysr3/regularizers.py:L1Regularizer.prox", "src/pysr3/solvers.py:PGDSolver.optimize", "src/pysr3/linear/oracles.py:LinearOracle.loss", "src/pysr3/linear/oracles.py:LinearOracleSR3.value_function"]}
{"id": "C202", "title": "The strength at which an L1 model drops all features", "statement": "A converged linear fit with the L1 penalty is exactly zero if the penalty lam w_j of every feature exceeds the size of its correlation with the observations by more than the stopping error tol (1/t + L), and is not zero if one correlation exceeds its penalty by more than this error. With relaxation the correlations are replaced by el v0, v0 the relaxed coefficients belonging to zero.", "quantifier": "every linear problem, strength, weights, tolerance, step rule, budget and start; plain and SR3 models", "why_tests_cant": "the threshold depends on the data; tests use single strengths", "anchors": ["src/pysr3/linear/models.py:LinearModel.fit_problem", "src/pysr3/regularizers.py:L1Regularizer.prox", "src/pysr3/linear/oracles.py:LinearOracle.gradient_value_function", "src/pysr3/linear/oracles.py:LinearOracleSR3.gradient_value_function"]}
{"id": "C203", "title": "A larger L0 budget never fits worse", "statement": "If LinearL0Model is fitted to the same data with budgets nnz = k <= k' and both fits report convergence, the sum of squared residuals for k' is at most the one for k.", "quantifier": "every linear problem, pair of budgets k <= k', step rule, tolerance, start and order of equal entries in the sorting", "why_tests_cant": "tests fit single budgets; the claim compares every pair of fits", "anchors": ["src/pysr3/linear/models.py:LinearModel.fit_problem", "src/pysr3/regularizers.py:L0Regularizer.prox", "src/pysr3/solvers.py:PGDSolver.optimize"]}
{"id": "C204", "title": "Predicted random effects improve the fit of the training data and are shrunk", "statement": "In every group the squared residuals of the fixed parts, divided by the observation variances, equal those of fixed plus random parts, plus the squares of the random parts, plus twice the sum of u_j^2/gamma_j. Hence after a successful fit with nonnegative variances the predictions for the training rows never have larger weighted squared residuals than the fixed parts alone, in any group, and 4 u_j^2 <= gamma_j times the latter.", "quantifier": "every list of groups, fixed effects and variances for which optimal_random_effects returns; every model, table, state and argument of a successful fit", "why_tests_cant": "tests look at a few fits; the identity and the bounds hold for every group of every fit", "anchors": ["src/pysr3/lme/oracles.py:LinearLMEOracle.optimal_random_effects", "src/pysr3/lme/models.py:LMEModel.fit_problem", "src/pysr3/lme/models.py:LMEModel.predict_problem"]}
{"id": "C205", "title": "Larger variances follow the data more closely", "statement": "If all variances of the random effects are multiplied by t >= 1 (fixed effects and data unchanged), the random effects of optimal_random_effects leave weighted squared residuals that are not larger in any group, and the sum of u_j^2/gamma_j (old gamma) is not smaller.", "quantifier": "every list of groups with positive observation variances, fixed effects, variances that are zero or above 1e-10, factor t >= 1", "why_tests_cant": "tests evaluate single variances; the claim is monotonicity over all factors", "anchors": ["src/pysr3/lme/oracles.py:LinearLMEOracle.optimal_random_effects"]}
{"id": "C206", "title": "Optimal fixed and random effects solve Henderson's equations", "statement": "The result of optimal_beta and the random effects of optimal_random_effects for it are the only joint minimiser of the penalised least-squares criterion in fixed and random effects; the remaining residuals, divided by the observation variances, are orthogonal to every fixed feature, so with an intercept they add up to zero.", "quantifier": "every list of groups with positive observation variances and variances that are zero or above 1e-10 for which optimal_beta returns; all competing pairs of fixed and random effects", "why_tests_cant": "tests compare single outputs; the claim is optimality against all competitors", "anchors": ["src/pysr3/lme/oracles.py:LinearLMEOracle.optimal_beta", "src/pysr3/lme/oracles.py:LinearLMEOracle.optimal_random_effects"]}
{"id": "C207", "title": "Larger variances explain more and cost more", "statement": "If variances are increased componentwise, the loss of observations that the fixed effects explain exactly does not decrease, and what the residuals add to the loss is nonnegative and does not increase. If the fixed effects explain all observations exactly, no fixed effects and variances have a smaller loss than these with all variances zero.", "quantifier": "every list of groups with positive observation variances, all fixed effects, all pairs of nonnegative variances with gamma <= gamma'", "why_tests_cant": "tests evaluate the loss at single points; the claim is monotonicity over all of them", "anchors": ["src/pysr3/lme/oracles.py:LinearLMEOracle.loss"]}
{"id": "C208", "title": "More groups and smaller variances make the fixed effects more precise", "statement": "If covariance_beta returns, it also returns after adding further groups and making variances smaller (not negative), and the covariance of the fixed effects does not increase, in any direction; the sign flip probabilities of all coefficients do not increase either.", "quantifier": "every list of groups and of added groups with positive observation variances, every instantiated prior, all pairs of nonnegative variances gamma' <= gamma, all coefficients", "why_tests_cant": "tests evaluate single covariances; the claim compares all pairs of data sets and variances", "anchors": ["src/pysr3/lme/oracles.py:LinearLMEOracle.covariance_beta", "src/pysr3/lme/oracles.py:LinearLMEOracle.hessian_beta", "src/pysr3/lme/oracles.py:LinearLMEOracle.flip_probabilities_beta"]}
{"id": "C209", "title": "A stronger relaxation pulls the coefficients to the relaxed ones", "statement": "With a larger relaxation constant the SR3 optimal_beta is at most as far from the relaxed fixed effects and its loss is not smaller; two vectors of relaxed fixed effects give fixed effects which are at most as far apart. The inner coefficients of the practical mode of the linear SR3 oracle behave in the same way when el grows.", "quantifier": "every list of groups with positive observation variances, all nonnegative variances, all relaxed fixed effects, all pairs of positive relaxation constants; every linear problem with c = identity", "why_tests_cant": "tests fit with one relaxation constant; the claim compares all pairs of constants and of relaxed coefficients", "anchors": ["src/pysr3/lme/oracles.py:LinearLMEOracleSR3.optimal_beta", "src/pysr3/linear/oracles.py:LinearOracleSR3.find_optimal_parameters"]}
{"id": "C210", "title": "The SR3 oracle reports a smaller uncertainty of the fixed effects", "statement": "covariance_beta of the SR3 oracle returns for all data, also with collinear features: a symmetric matrix with positive variances of at most 1/lb, which does not grow in any direction when lb grows. Where covariance_beta of the plain oracle returns, the SR3 one is smaller in every direction. The sign flip probabilities are ordered in the same way.", "quantifier": "every list of groups with positive observation variances, every instantiated prior, all nonnegative variances, all pairs of positive relaxation constants", "why_tests_cant": "tests evaluate single covariances; the claim compares two oracles and all pairs of constants on all data", "anchors": ["src/pysr3/lme/oracles.py:LinearLMEOracleSR3.hessian_beta", "src/pysr3/lme/oracles.py:LinearLMEOracle.covariance_beta", "src/pysr3/lme/oracles.py:LinearLMEOracle.flip_probabilities_beta"]}
{"id": "C211", "title": "Longer steps, stronger penalties and larger weights shrink more", "statement": "If the step length, the strength and the weights of a second call of the L1, CAD or SCAD prox at the same point are at least those of the first, no coefficient returned by the second call is larger in absolute value, so coefficients dropped by the first are dropped by the second. This also holds where the CAD and SCAD formulas are not exact minimisers. With a smaller L0 budget every coefficient is the one returned with the larger budget, or zero.", "quantifier": "all points, nonnegative steps, strengths and weights, with and without weights; for SCAD rho > 1 and sigma >= 0", "why_tests_cant": "tests call prox with single strengths; the claim compares all pairs", "anchors": ["src/pysr3/regularizers.py:L1Regularizer.prox", "src/pysr3/regularizers.py:CADRegularizer.prox", "src/pysr3/regularizers.py:SCADRegularizer.prox", "src/pysr3/regularizers.py:L0Regularizer.prox"]}
{"id": "C212", "title": "Proximal operators keep the order of the coefficients", "statement": "Of two coefficients with the same weight, the one that is larger in absolute value before L1, CAD or SCAD prox is not smaller afterwards, in one call and between calls. The elastic wrapper around them keeps the order too, and a longer step of it does not make a coefficient larger.", "quantifier": "all points, nonnegative steps, strengths, weights and elastic constants, with and without weights; for SCAD rho > 1 and sigma >= 0, also where the formula is not the exact minimiser", "why_tests_cant": "tests compare prox with single values; the claim compares all pairs of coefficients, points and steps", "anchors": ["src/pysr3/regularizers.py:L1Regularizer.prox", "src/pysr3/regularizers.py:CADRegularizer.prox", "src/pysr3/regularizers.py:SCADRegularizer.prox", "src/pysr3/regularizers.py:ElasticRegularizer.prox"]}
{"id": "C213", "title": "Converged convex linear fits agree", "statement": "Two fits of one problem without penalty or with the same L1 penalty and weights which both report convergence have fitted values that agree up to an explicit multiple of their tolerances and the distance of their coefficients, whatever their starts, step lengths and stepping policies; the same holds for the relaxed (SR3) models with one relaxation weight. If the features are independent the coefficients agree up to an explicit multiple of the tolerances.", "quantifier": "every linear problem, all starts and warm starts, all weights, all pairs of solver settings obeying the step rule", "why_tests_cant": "tests fit once from one start; the claim compares all pairs of converged fits", "anchors": ["src/pysr3/linear/models.py:LinearModel.fit", "src/pysr3/solvers.py:PGDSolver.optimize"]}
{"id": "C214", "title": "Without variances a mixed model is weighted least squares", "statement": "With all variances of the random effects zero the loss is half the sum of squared residuals divided by the observation variances, plus half the sum of their logarithms and the prior; the random effects are zero; optimal_beta, where it returns, satisfies the weighted normal equations and is the only minimiser of the weighted sum of squared residuals.", "quantifier": "every list of groups with positive observation variances, every prior, all fixed effects", "why_tests_cant": "tests use positive variances or single data sets", "anchors": ["src/pysr3/lme/oracles.py:LinearLMEOracle.loss", "src/pysr3/lme/oracles.py:LinearLMEOracle.optimal_beta", "src/pysr3/lme/oracles.py:LinearLMEOracle.optimal_random_effects"]}
{"id": "C215", "title": "Copies of the data keep the estimates", "statement": "With every group repeated k times the loss without prior is k times the loss, optimal_beta returns the same fixed effects (and fails on the same inputs), and covariance_beta is divided by k.", "quantifier": "every list of groups with positive observation variances, all nonnegative variances, every k at least one, all fixed effects", "why_tests_cant": "tests never repeat the groups of a data set and compare", "anchors": ["src/pysr3/lme/oracles.py:LinearLMEOracle.loss", "src/pysr3/lme/oracles.py:LinearLMEOracle.optimal_beta", "src/pysr3/lme/oracles.py:LinearLMEOracle.covariance_beta"]}
{"id": "C216", "title": "Residuals of converged linear fits", "statement": "After a converged plain linear fit without penalty or with the L1 penalty every feature with weight or strength zero is uncorrelated with the residuals up to tol (1/t + L); with an unpenalised column of ones the residuals sum to zero up to the same bound; and the inner product of fitted values and residuals is the L1 penalty up to that bound times the sum of the absolute coefficients.", "quantifier": "all problems, weights, strengths, starting points, tolerances, step rules of C102, every run that reports convergence", "why_tests_cant": "tests check accuracy of the coefficients on generated data, never the residuals", "anchors": ["src/pysr3/linear/models.py:LinearModel.fit_problem", "src/pysr3/regularizers.py:L1Regularizer.prox", "src/pysr3/solvers.py:PGDSolver.optimize"]}
{"id": "C217", "title": "Regularizers of mixed models keep the order of the variances", "statement": "The proximal operator of the positive-quadrant wrapper around an L1, CAD or SCAD regularizer, in the elastic wrapper or not, never returns a larger variance for the smaller of two variances with equal weights (negative ones count as zero), and a longer step never makes the absolute value of any coordinate larger.", "quantifier": "all points, weights and strengths at least zero, CAD and SCAD parameters in their range, elastic parameter at least zero, steps 0 <= alpha <= alpha'", "why_tests_cant": "tests evaluate the operators at a few points", "anchors": ["src/pysr3/regularizers.py:PositiveQuadrantRegularizer.prox", "src/pysr3/regularizers.py:ElasticRegularizer.prox", "src/pysr3/regularizers.py:L1Regularizer.prox", "src/pysr3/regularizers.py:CADRegularizer.prox", "src/pysr3/regularizers.py:SCADRegularizer.prox"]}
{"id": "C218", "title": "Random effects of shared features sum to zero", "statement": "If a random feature is the same linear combination of the fixed features in every group (in particular a shared intercept), the random effects predicted for it at the fixed effects returned by optimal_beta sum to zero over the groups. At the result of the SR3 optimal_beta they sum to the variance times lb times the same combination of the differences between the fixed effects and the relaxed ones.", "quantifier": "every list of groups with positive observation variances, all variances that are zero or above the threshold of the code, every such feature", "why_tests_cant": "tests compare random effects with generated ones within a tolerance, never their sum", "anchors": ["src/pysr3/lme/oracles.py:LinearLMEOracle.optimal_beta", "src/pysr3/lme/oracles.py:LinearLMEOracle.optimal_random_effects", "src/pysr3/lme/oracles.py:LinearLMEOracleSR3.optimal_beta"]}
