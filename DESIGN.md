# Formal model of pysr3: design

Source: `/repo` (pysr3 at the pinned commit), read as text only. Model and proofs: Lean 4.33 + Mathlib under `lean/Verif`.

## Trusted base

* Lean's kernel, and the three standard axioms `propext`, `Classical.choice`, `Quot.sound` (checked with `#print axioms`; no theorem
  uses anything else). No `sorry`, no added axioms, no `native_decide`/`bv_decide`.
* The hand translation from Python to Lean. Every definition of the model cites the file and lines it models.
* **Exact arithmetic.** `float64` is modelled by a linearly ordered field `K` (theorems hold for both ℚ, where the model runs, and ℝ) or by ℝ
  when logarithms, square roots or limits are involved. Rounding, overflow, NaN are not modelled (except in C130 and C131, where
  `Model/Floats.lean` models the solver and the proximal operators once more over an arbitrary floating-point format; its contract `FArith` — monotone, symmetric, idempotent rounding with a relative
  error of at most 1% from 1e-15 on, overflow to infinity, NaN semantics of IEEE 754, unspecified summation order, unsigned zeros — is trusted to hold for binary64); the places where the Python code
  divides are listed per property, and a division by zero is either excluded by a hypothesis (a stated reject) or shown as a finding.
  The SCAD prox reports its `0/0` as the pseudo-exception `PyErr.nan`; in the code the NaN goes on: a NaN trial point of a line search only halves the step, and with fixed steps
  the iterate becomes NaN, which ends the loop with `converged=True`.
* **External calls** are parameters with a recorded contract: `argsort` (any sorting permutation: numpy's default sort is unstable,
  so ties are arbitrary), `numpy.linalg.cholesky` (any lower triangular factor with positive diagonal), `numpy.linalg.solve/inv`
  (exact solution / `Matrix.inv`), `scipy.optimize.minimize` (any value within its bounds), random generators (arbitrary values),
  sklearn `check_X_y`, `check_is_fitted`, `unique_labels` (their documented results).

## Conventions

* `Verif/Model/*` — the model, function by function. `Verif/Spec/*` — independent specifications. `Verif/Lemmas/*` — helpers.
  `Verif/Props/*` — the property theorems (named `C01_...`), each with a non-vacuity example beside it.
* Python exceptions are values: `Except PyErr α`. Numpy vectors are `Fin n → K` (numerics, so a shape agreement is a typing fact)
  or `List K` (data plumbing, where shapes are dynamic and a shape error is a value).
* `np.inf` as a penalty value is `⊤ : WithTop K`.
* Where the code violates the property, the negation is proved with a concrete witness, and a theorem with suffix `_partial`
  states what does hold. The findings are listed at the end.

## Properties: what is modelled and how it is proved

| id | model | proof |
|----|-------|-------|
| C01 | `_take_only_k_max` on lists, argsort a parameter | kept set dominates dropped set; exchange argument on sums of squares |
| C02 | `L0Regularizer.prox` with mask: gather/scatter | reduces to C01 on the gathered sublist |
| C03 | `L1Regularizer.prox` coordinatewise (two clips) | scalar strong-convexity inequality, summed |
| C04 | `L1Regularizer.value` (drops `lam` with weights) | witness; partial: no weights, or `lam = 1` |
| C05 | `CADRegularizer` value/prox | witness in the band `rho<|x|<rho+alpha*lam/2`; partial outside the band; exact set of inputs with any weights (`Props/RegExact.lean`) |
| C06 | `SCADRegularizer` value/prox, division explicit | scalar case analysis; partial `alpha*lam*w < rho-1`; witnesses for 0/0 and for a non-minimiser; exact set of inputs (`Props/RegExact.lean`) |
| C07 | values | scalar case analysis, sums |
| C08 | `ElasticRegularizer` over an abstract inner regularizer | completing the square |
| C09 | full regularizer tree | induction on the tree |
| C10 | `PositiveQuadrantRegularizer` over a separable even inner penalty | reflection argument |
| C11 | all prox | direct |
| C12 | all prox | scalar case analysis |
| C13 | L1 prox | scalar, summed |
| C14 | `L0RegularizerLME` on lists | from C01/C02 lemmas |
| C15 | `L0RegularizerLME` as a state machine | witness history; partial: explicit budgets or equal sizes |
| C16–C19 | `PGDSolver.optimize` as fuelled loop + line search by well-founded recursion | induction over iterations |
| C20 | same, with exact prox | prox inequality + acceptance test, induction |
| C21 | one solver step | convexity/subgradient argument |
| C22 | solver with logger | induction |
| C23–C25 | `Logger` as a state machine (container kind modelled) | refinement by induction over histories; witnesses |
| C26–C28 | `GaussianPrior` | list induction; algebra; witness |
| C29, C30 | `GaussianPriorLME`, `LinearOracle.instantiate` | state machine, witness |
| C31–C38 | `LinearOracle`, `LinearOracleSR3` with Mathlib matrices over ℝ | completing the square, positive definiteness |
| C39–C42 | `LinearModel.fit_problem/predict_problem` | solver invariants; histories |
| C43–C53 | `LMEProblem` constructors on lists | list/permutation induction; witnesses |
| C54–C59 | LME oracle with Mathlib matrices over ℝ, Cholesky factor as a contract | determinant lemma, Sherman–Morrison, Woodbury, derivatives |
| C60–C64 | cache state machine, packing, feature map, interior-point step bound | induction over histories |
| C65–C70 | information criteria, effective sample size, hat matrix, covariances, value function | algebra, Cauchy–Schwarz, witnesses |
| C71–C75 | `LMEModel` fit/predict/score glue | list induction, solver invariants, witnesses |
| C76–C78, C84–C86, C101 | `select_covariates`, `get_model`: dictionaries of the caller, grid, search loop, names | list induction over the grid, invariance under the order of a set, witnesses |
| C102–C105 | linear fits without penalty or with L1 (plain and SR3 non-practical): accuracy, rate, termination | three-point inequality of the proximal step, telescoping over the trace of the solver loop; geometric growth as a witness for C105; `Props/LinFixed.lean`: largest eigenvalue of `AᵀA` against 40 decides |
| C106–C108 | `get_information_criterion`, `obs_std` and `LinearProblem.generate` (`linear/problems.py:67-73`; the random draws are arguments) | recovery combines C102 and C104 with the Frobenius bound of the generated matrix |
| C109–C110 | the ten linear classes with their constructor defaults (`Model/LinClasses.lean`) | two solver runs whose proximal operators agree on the step lengths that can occur give the same points; totality by replacing exceptional values that are never reached |
| C111 | convexity of the relaxed loss in `(beta, gamma)` (`lme/oracles.py:1107-1180`) | the quadratic part is a perspective function; the log-determinant is concave with second derivative at least `-(z_jᵀ Λ⁻¹ z_j)²` summed |
| C112 | the Newton system of `find_optimal_parameters_ip` (`lme/oracles.py:1413-1467`) | eliminating the multipliers gives a positive definite system for the gradient of the barrier function; joint differentiability from Cramer's rule |
| C113 | the EM initializer (`lme/models.py:235-238`) | C58 and C59 for the start; a one-observation counterexample for the loss |
| C114–C115 | practical SR3 fits and the loop conditions of `find_optimal_parameters_ip` (`solvers.py:125-194`, `lme/oracles.py:1371-1517`) | invariant over the passes; trace of the loop |
| C116 | `from_x_y` without labels (`lme/problems.py:588-592`) | the default table has one group; the likelihood with unit variances is least squares |
| C117–C118 | the constructors of `lme/models.py` (374-1371) with all defaults (`Model/LmeClasses.lean`) | the default configurations are robust (C83); the prox of a penalty of strength zero is the identity |
| C119–C121 | no new code; whole fits of `lme/models.py` and `linear/models.py` | every evaluation of the oracles is a sum over groups of terms that do not see the order of the rows; the loops are the same function of these evaluations |
| C122–C123 | no new code; whole fits of `linear/models.py` | `Lemmas/SolverMap.lean`: a linear isometry that carries one oracle and regularizer to another carries the whole run of the solver, its log and its exceptions |
| C124–C125 | no new code; whole fits of plain models of `lme/models.py` | `Props/LmeCurv.lean`: upper curvature of the marginal likelihood on level sets; `Props/LmeConverge.lean`: non-convex proximal gradient descent, weakly convex penalties |
| C126–C127 | no new code; whole fits, predictions and scores of `lme/models.py` | `Props/LmeTurn.lean`, `LmeTurnFit.lean`: oracles, interior point method, penalties and solver under signed permutations of the effects; `LmeTurnTable.lean`: tables, coefficients by column |
| C128 | `to_dataframe` and `from_dataframe` on frames whose column names may repeat (`lme/problems.py:747-830`) | `Model/LmeFrame.lean`, `Props/LmeFrame.lean` |
| C129 | fits and predictions with intercepts against explicit columns of ones: refinement of `from_x_y`, then of `fit_problem` (`lme/problems.py:560-745`, `lme/models.py:120-330`) | `Props/LmeOnes.lean` |
| C130–C131 | the solver, the linear oracle and the proximal operators in floating-point arithmetic: rounding after every operation, overflow, NaN; the format is a parameter `FArith` (`solvers.py:77-122`, `linear/oracles.py:55-135`, `regularizers.py`) | `Model/Floats.lean`, `Props/Floats.lean`, `Props/FloatExact.lean`, `Props/FloatProx.lean` |
| C132 | changes of units of target and covariates: loss, gradients, optimal fixed effects, random effects, criteria | `Props/LmeUnits.lean` |
| C133–C134 | linear model objects: fitted attributes, checks of arrays, failing fits, starting points (`Model/LinSession.lean`) | `Props/LinSession.lean` |
| C135 | stratified shuffle splits (`Model/LmeSplit.lean`; sklearn's splitter by its algorithm, random choices arbitrary) | `Props/LmeSplit.lean`; largest-remainder rounding |
| C136 | constructors and `instantiate` of the twenty model classes, `get_params`, `set_params`, `clone` (`Model/Ctor.lean`) | `Props/Ctor.lean`; induction over the class hierarchy |
| C137–C138 | likelihood as an integral over the random effects; conditional distribution of the random effects | `Lemmas/GaussInt.lean`, `Props/LmeIntegral.lean`; Gaussian integrals one effect at a time (Fubini, rank-one updates) |
| C139 | sign flip probabilities as posterior probabilities | `Lemmas/GaussPost.lean`, `Props/LmePosterior.lean`; marginals of a Gaussian density by Tonelli and translation, on top of C55 and C93 |
| C140 | mixed-model objects (`Model/LmeSession.lean`: arrays with NaN, `check_X_y`, the attributes `coef_`, `logger_`, `n_features_in_`) | core of the fit total, criteria fail exactly on dependent columns (`Props/LmeSession.lean`) |
| C141 | linear oracle objects (`Model/LinOracleObj.lean`: the attributes, points of any length with numpy broadcasting, `instantiate` that raises after attaching) | induction over histories, C32 (`Props/LinOracleObj.lean`) |
| C142 | expected loss (random variables on any probability space in place of the observations) | `tr W - n - log det W ≥ 0` by eigenvalues, expectation of quadratic forms (`Props/LmeFisher.lean`) |
| C143 | `generate` + oracle (random variables in place of the draws) | covariance of linear combinations, C142 (`Props/LmeGenLaw.lean`) |
| C144 | law of generated observations | C137 integral over the effects, product measures (`Props/LmeGenDensity.lean`) |
| C145 | linear SR3 models with `el <= 0` (`ZeroDivisionError`, NaN from `np.sqrt`) and `el > 0` | traces of the solver, uniqueness of deterministic traces (`Props/LinElZero.lean`) |
| C146 | loss of growing data (independent repetitions of a design on any probability space) | strong law of large numbers for the moments, C142, a compact set containing all near-minimisers (`Props/LmeConsistent.lean`) |
| C147 | loss with prior and penalty over nonnegative variances | coercivity of the loss, extreme value theorem (`Props/LmeExists.lean`) |
| C148 | `get_ic` of plain and relaxed mixed-model oracles | criteria of C65 and C97 (`Props/LmeGetIc.lean`) |
| C149 | plain linear fits, data with known truth | C102 at the true coefficients, Cauchy–Schwarz, Chebyshev (`Props/LinStat.lean`) |
| C150 | plain linear fits, last step of the run | optimality condition of soft thresholding (`Props/LinSupport.lean`) |
| C151 | plain L1 fits, nearly uncorrelated features | C150, cone condition (`Props/LinSupport.lean`) |
| C152 | SR3 L1 fits, last step of the run | as C150, C151 with the value function of the relaxed problem (`Props/LinSr3Stat.lean`) |
| C153 | plain L0 fits, last step of the run | optimality condition of hard thresholding, incoherence (`Props/LinL0.lean`) |
| C154 | linear fits with fixed steps and exact proximal operators | sufficient decrease with a strict gap, telescoping (`Props/LinNonconvex.lean`) |
| C155 | `Model/Floats.lean` with the standard model of rounding errors as a hypothesis (`Prec.Fits`, proved for every format that sums from left to right and for binary64 with truncation) | forward error analysis of the gradient, of the last step and of the stopping test (`Props/FloatFit.lean`, `Props/FloatFormats.lean`). With the line search only `t ≥ min(step, 4e-15)` is known: rounding can spoil the acceptance test near the optimum |
| C156 | `L0RegularizerLME.prox` and `value` against the documented constraints (`L0LmeAdmissible`) | none |
| C157 | no new code; whole fits of `linear/models.py` | strongly convex counterpart of C103/C104 (`Props/LinRate.lean`) |
| C158 | no new code; whole fits of `linear/models.py` | `Scales` in `Props/LinUnits.lean`: multiplication by `u` carries a run of the solver (values scale by `u²`) to the run in the new unit; for L0 the sort breaks ties alike in both units |
| C159 | no new code; SR3 fits of `linear/models.py` | Young's inequality between the residuals at the auxiliary and the relaxed vector (`Props/LinRelax.lean`), combined with C102, C103 and the quadratic growth of C157 |
| C160 | no new code; plain L1 fits of `lme/models.py` | the inequality of the last proximal step (C124) one coordinate at a time; Cauchy-Schwarz in the inverse covariances bounds the derivatives by the excess of the likelihood over the noise level (`Props/LmeKkt.lean`) |
| C161 | no new code; plain SCAD and CAD fits of `linear/models.py` | the last proximal step inverted coordinate by coordinate (`v - prox v` is the step times the slope of the penalty at the result); diagonal dominance of the Gram matrix as in C151 (`Props/LinFolded.lean`) |
| C162 | no new code; errors as random variables | the error bounds for a fixed error vector (C151, C153, C161) outside the event that one correlation is large; Chernoff bound for sums of independent sub-Gaussian variables (Mathlib), union over the features, Borel-Cantelli for sequences (`Props/LinTails.lean`) |
| C163 | `linear/problems.py` 98-152 (`linFromDataframe` with `c`, `LinProblem.toXY`) | unfolding, the exact condition of each exception; a dataframe is a partial map from names to columns of one length (`Props/LinFrame.lean`) |
| C164 | no new code (`lme/oracles.py` 306-332 as in C64) | differentiability along a line from the partial derivatives (C56, C112), negative slope gives a lower point, so an exact line search takes a positive step and only the tolerance or the limit ends the loop (`Props/LmePgd.lean`) |
| C165 | no new code (`lme/oracles.py` 353-408 as in C63) | the system solved up to `tol_inner` at the stop, with the complementarity target a tenth of the mean product (`Props/LmeIpStop.lean`) |
| C166 | no new code; plain SCAD fits of `lme/models.py` | as C160, with the tangents of the penalty on each side of zero (`Props/LmeKktScad.lean`) |
| C167 | no new code; plain L0 and CAD fits of `lme/models.py` | the last proximal step read coordinate by coordinate (`Props/LmeLast.lean`, examples in `Props/LmeL0Stop.lean`) |
| C168 | no new code; plain L0 fits of `lme/models.py` with fixed steps | sufficient decrease over the set of sparse points (`Props/LmeL0Stop.lean`) |
| C169 | no new code; SR3 L1 fits of `lme/models.py` with the oracle's state between calls | the last proximal step together with the final state of the inner solver (`Props/LmeSr3Last.lean`) |
| C170 | no new code; `generate`, then `fit_problem` and `predict_problem` of `lme/models.py` | the groups of a generated problem are well formed; totality of fits (C83); list inductions for the predictions (`Props/LmeGenFit.lean`) |
| C171 | no new code; SR3 CAD, SCAD and L0 fits of `lme/models.py` with the oracle's state between calls | the last proximal step with the final state of the inner solver, coordinate by coordinate (`Props/LmeSr3Folded.lean`) |
| C172 | names of the effects in `generate` (`lme/problems.py:336-339, 502-503`), `GaussianPriorLME.instantiate` on them | injectivity of decimal notation; entries of the designs by name; C26 (`Props/LmeGenNames.lean`) |
| C173 | `GaussianPrior.loss`, `gradient`, `hessian` (`priors.py:63-130`) and their sums in the oracle with numpy broadcasting | `Model/PriorShapes.lean`; C48 for the names (`Props/PriorShapes.lean`) |
| C174–C178 | arguments, random draws and true parameters of `LMEProblem.generate` (`lme/problems.py:186-528`) | `Model/LmeGenArgs.lean` (`genCall`), on top of `lmeGenerate`; the random generator is an arbitrary input with the promised shapes (`GenRand.Fits`) (`Props/LmeGenArgs.lean`) |
| C179–C180 | logging inside `find_optimal_parameters_ip` (`lme/oracles.py:1444-1515`) and practical fits with it | `Model/LmeIpLog.lean` (the same loop as `Model/LmeIp.lean`, with the logger passed along; `C179_same` proves that both give the same fit) (`Props/LmeIpLog.lean`, explicit case in `Props/LmeIpEx.lean`) |
| C181 | the whole log of `PGDSolver.optimize` (`solvers.py:78-122`) | `Model/Solvers.lean` (`localsInit`, `localsIter`, `logBlock`) and `Model/Logger.lean` (`Props/SolverLog.lean`) |
| C182 | `generate`, `to_x_y`, `from_x_y`, `fit` together | `Model/LmeProblem.lean`, `Model/LmeModels.lean` (`Props/LmeRoundTrip.lean`) |
| C183 | no new code; practical SR3 CAD, SCAD and L0 fits with their log | the last projection of the inner method and its residual, coordinate by coordinate (`Props/LmeIpFolded.lean`) |
| C184 | no new code; fits of linear and mixed-effects models with moved answers | every solver commutes with the shift (`Lemmas/SolverShift.lean`, `Props/LinShift.lean`, `Props/LmeShift.lean`) |
| C185 | no new code; two runs of the solver compared with one | induction over the iterations with the two logs related (`Props/Resume.lean`), fits in `Props/ResumeFits.lean` |
| C186 | no new code; two data sets with the same cross products compared | oracles agree or differ by a constant (`Lemmas/SolverOffset.lean`, `Props/LinSuff.lean`) |
| C187 | no new code; two data sets with the same weighted cross products compared | Woodbury formula and a rank argument for the domain (`Props/LmeSuff.lean`), losses that differ by a constant (`Lemmas/SolverOffset.lean`) |
| C188 | no new code; runs with and without log keys compared | evaluations that leave the oracle unchanged (`Lemmas/SolverQuiet.lean`), `Props/Logging.lean`; for the violation one Newton pass of the inner method is computed (`Props/LoggingEx.lean`) |
| C189 | no new code; runs with different stopping parameters compared | the loop of the stricter run is the loop of the looser one, continued (`Props/Tighter.lean`, `Props/TighterFits.lean`) |
| C190 | no new code; problems with a zero column | the proximal operator is all that acts on the coefficient (`zeroCol_inv`, `Props/LinZeroCol.lean`) |
| C191 | no new code; problems with two equal or opposite columns | exchanging the two columns gives the same problem, so that C122 and C126 apply with it on both sides (`Props/Duplicates.lean`) |
| C192 | no new code; tables with zero columns | the gradients vanish in these coordinates (`noData_gradient`), only the prox acts on them (`Props/LmeZeroCol.lean`) |
| C193 | no new code; pairs of calls of `find_optimal_parameters_ip` | strong convexity (C111) of the relaxed loss, continuity of the likelihood (C147) (`Props/LmeRepeat.lean`) |
| C194 | no new code; `value_function` and `gradient_value_function` of C70 | quadratic growth around the minimiser (`relaxed_growth`), Lipschitz continuity of the minimiser (`Props/LmeEnvelope.lean`) |
| C195 | no new code; the fits of C83 with the oracle of C194 | proximal gradient steps from inexact gradients lower the exact value function plus penalty (`inexact_step`, `OracleCalls`, `Props/LmeSr3Stop.lean`) |
| C196 | no new code; the oracle of C111, C80 and C194 | strong convexity of the relaxed loss at the relaxed variables themselves (`sr3Gradient_self`, `Props/LmeTighten.lean`) |
| C197 | no new code; the fits of C195, with either step rule | weak convexity of the exact value function and a proximal gradient step from a wrong gradient (`value_lower`, `inexact_certificate`, `Props/LmeSr3Near.lean`) |
| C198 | `evalOn`: oracle of a problem at coefficients given as arrays (`lme/oracles.py:81-113`) | rows of a group in the stacked table are its rows in its part, shifted; likelihood is a sum over groups (`Props/LmeStack.lean`) |
| C199 | no new code | penalties as functions of the counts; bounds of the degrees of freedom from C98 (`Props/LmeIcMono.lean`) |
| C200 | no new code | the relaxed coefficient of a zero column is the coefficient itself (`sr3Inner_zeroCol`), so only the prox moves it (`Props/LinZeroColSr3.lean`) |
| C201, C202 | no new code | two near-minimisers of the same loss plus different multiples of one penalty (`path_gap`); correlations of a monotone residual (`all_dropped`) (`Props/LinPath.lean`) |
| C203 | no new code | runs with known iterates (`finite_run`), sets of largest entries (`KeepsLargest.strict`), descent of hard thresholding within the budget (`l0_step_descent`) (`Props/LinBudget.lean`) |
| C204 | no new code | balance of the normal equations with masked variances (`effects_balance`, `effects_split`), sums over the rows of a group (`sum_groupRows`) (`Props/LmeShrink.lean`) |
| C205 | no new code | comparison of two penalised criteria (`blup_scale`, with `path_gap`) (`Props/LmeScaleVar.lean`) |
| C206 | no new code | value of the penalised criterion at its minimiser (`blupCriterion_blup`), sums over pairs of lists (`sum_zip_lt`) (`Props/LmeHenderson.lean`) |
| C207 | no new code | the two parts of the loss (`explained_loss`, `quad_antitone`, `log_det_monotone`) (`Props/LmeTrade.lean`) |
| C208 | no new code | order of Hessians and inverses (`hessian_form_le`, `kernel_form`) (`Props/LmePrecision.lean`) |
| C209 | no new code | normal equations of the SR3 fixed effects, exchange of minimisers (`Props/LmePull.lean`) |
| C210 | no new code | positive definite SR3 Hessian, order of inverses (`Props/LmeSr3Cov.lean`) |
| C211 | no new code | absolute values of the three formulas (`abs_soft`, `scad_abs`, `scad_anti`) (`Props/RegStrength.lean`) |
| C212 | no new code | monotonicity of the formulas in the point (`scad_mono`, `scad_anti_mono`) (`Props/RegOrder.lean`) |
| C213 | no new code | strong convexity at the midpoint of two fits (`lasso_midpoint`) (`Props/LinAgree.lean`) |
| C214 | no new code | determinant and inverse of the diagonal covariance (`groupNLL_zero`) (`Props/LmeZeroVar.lean`) |
| C215 | no new code | sums over repeated groups (`sum_copies`) (`Props/LmeCopies.lean`) |
| C216 | no new code | optimality conditions of C150 (`Props/LinResid.lean`) |
| C217 | no new code | C212 behind the clipping of the wrapper (`Props/RegVarOrder.lean`) |
| C218 | no new code | normal equations of `optimal_beta`, `blup_apply` (`Props/LmeShared.lean`) |
| C79 | `generate` followed by `to_x_y` | list induction; witness without random effects |
| C80 | `find_optimal_parameters_ip` from a starting point with zero variances; distance from the minimum when the loop ends | invariant of the loop, witness; duality gap from the tangents of C111 |
| C87–C89 | SR3 value function and fits: dependence on history, start without variances, no random effects | invariants of both loops, witness |
| C81 | `find_optimal_parameters_ip` | the Newton matrix is invertible at every strictly positive iterate (block elimination), induction |
| C82 | `fit_problem` followed by `predict_problem` | list induction |
| C90 | `FakePGDSolver.optimize` | definition of the flag, convergence of the practical loop (C35, C36) |
| C91, C95 | `from_x_y`, `fit_problem`, `get_information_criterion` with intercepts | weights attached, sizes of the coefficients |
| C92 | `find_optimal_parameters_ip` with a regularizer | strong convexity of the relaxed objective |
| C93, C94 | `flip_probabilities_beta`, `get_condition_numbers` | Mathlib's Gaussian measure; spectral theorem |
| C96–C98 | `demarginalized_loss`, `_hodges2001ddf`, `vaida2005aic` | stacked designs `bigX`, `bigV`; projection `V⁻¹ - V⁻¹X(XᵀV⁻¹X)⁻¹XᵀV⁻¹` |
| C99 | criteria and flip probabilities logged by `fit_problem` | the logger keeps an entry once the solver has returned |
| C100 | losses logged by `PGDSolver` during `fit_problem` of plain models | steps cut to `1e-14` or less are taken unchecked |
| C83 | `fit_problem` | totality of all parts: groups, prior, weights, solver, random effects, criteria; `Props/LmeIdentified.lean`: with linearly independent fixed columns all initializers and logger keys |

## How the mixed-effects code is modelled

* **Problem** (`Model/LmeProblem.lean`). Per-group arrays are lists of rows; `np.array(0)` (a problem generated without random effects)
  is a separate constructor `zeroDim`. `unique_labels` raises for labels that are not whole numbers (sklearn calls such a target
  continuous). Names of columns and regularization weights are lists, because the code gets their lengths wrong (C47, C48).
* **Oracle** (`Model/LmeOracle.lean`). A group is `(x, y, z, l)` with Mathlib matrices. `np.linalg.cholesky` is the unique lower triangular
  factor with positive diagonal and raises `LinAlgError` if there is none (existence for positive definite matrices is proved in
  `Lemmas/Cholesky.lean`); `solve`/`inv` raise for singular matrices and are exact otherwise. Observation variances are nonzero
  (`1 / stds`), which `from_x_y` checks. A zero denominator `n - p - 2` or `n - p` of the conditional AIC
  (`inf`/`nan` in numpy) is the pseudo-exception `nan`. A problem without groups is not given special treatment (`np.linalg.solve(0, 0)` raises in the code).
* **Cache** (`Model/LmeCache.lean`). `self.gamma = gamma` stores a reference, so arrays live in a heap. All other files recompute the
  factors; C60 states for which histories this is what the code does.
* **Joint vector** (`Model/LmeJoint.lean`). Slices of lists; wrong lengths raise (numpy's broadcasting of an empty `gamma` is left out).
* **Inner solvers** (`Model/LmeIp.lean`). scipy's bounded line search is a parameter; the contract "result between the bounds" is a
  hypothesis where it is used. Logging inside the interior-point method is left out. For `q = 0` the code computes `0/0` before the loop; the model 0.
* **Models** (`Model/LmeModels.lean`). Regularizer stack `PositiveQuadrant(Elastic(base))`, oracle, solver, starting point, EM
  initializer, criteria. Simplifications: a Gaussian prior of the wrong length raises (numpy would broadcast length 1); wrong numbers
  of weights raise at the start rather than in the first prox, and SCAD with too few weights raises (the code zeroes the rest);
  `lam = -1` divides by zero in the code; an array without rows never raises in `predict`.
* **Diagnostics** (`Model/LmeExtra.lean`). `scipy.stats.norm(mean, scale).cdf(0)` is Mathlib's Gaussian measure of the half line (a zero scale
  is an error value); singular values of a Gram matrix are its eigenvalues.
* **Selection** (`Model/LmeSelect.lean`). The order of a Python set is a parameter (any duplicate-free list with the same elements).
  The yaml file, printing and creating the folder are left out. `np.infty` does not exist in numpy 2; the model is that of numpy 1.

## Findings: where the code does not do what the property says

Each is proved by a theorem named `..._violated` (or given) on a concrete witness or for all inputs.

| id | file | finding |
|----|------|---------|
| C04 | `regularizers.py` | `L1Regularizer.value` drops `lam` once weights are attached. |
| C05 | `regularizers.py` | the CAD prox is not the minimiser for `rho < |x| < rho + alpha*lam/2`. |
| C06 | `regularizers.py` | the SCAD prox divides by zero at `alpha*lam*w = rho - 1` (`C06_scad_nan`) and returns a non-minimiser beyond. |
| C15 | `regularizers.py` | `L0RegularizerLME` with budget `None` keeps the size of the first problem. |
| C24 | `logger.py` | `Logger.append` raises `KeyError` for a key not present. |
| C25 | `logger.py` | keys given as a list or set make every optimisation raise `TypeError`. |
| C28 | `priors.py` | the Gaussian prior divides by the standard deviation instead of its square. |
| C29 | `priors.py` | `GaussianPriorLME` cannot be instantiated again after `forget`. |
| C30 | `linear/oracles.py` | every Gaussian prior raises `TypeError` in a linear model. |
| C40 | `linear/models.py` | `must_include_features` has no effect: the weights of the problem are never read. |
| C41 | `linear/problems.py` | a custom matrix `c` with two or more features raises `ValueError`. |
| C47 | `lme/problems.py` | with must-include lists the weights are one too long without an intercept; the random intercept is looked up in the list of the fixed effects. |
| C48 | `lme/problems.py` | with an intercept, the lists of column names are one too short. |
| C49 | `lme/problems.py` | the iteration position belongs to the problem: nested or interrupted traversals interfere. |
| C51 | `lme/problems.py` | the true coefficients of a generated problem ignore the intercept shift. |
| C52 | `lme/problems.py` | per-object variances are sliced `obs_var[start:group_size]`. |
| C58 | `lme/oracles.py` | `optimal_beta` ignores the prior. |
| C60 | `lme/oracles.py` | stale Cholesky factors: after attaching another problem, after in-place changes of `gamma`, and after a `LinAlgError`. |
| C63 | `lme/oracles.py` | `optimal_gamma_ip` reaches the boundary (strict positivity lost). |
| C66 | `lme/models.py` | `get_information_criterion` counts all coefficients (tolerance 0). |
| C69 | `lme/oracles.py` | `covariance_random_effects` and `covariance_y` return matrices that are no covariances. |
| C71 | `lme/models.py` | predictions come back sorted by group, not in the order of the rows. |
| C72 | `lme/models.py` | groups unseen at fitting make `predict` raise when there are random effects. |
| C73 | both `models.py` | `warm_start` has no effect (`check_is_fitted` returns `None`). |
| C76, C77 | `lme/model_selectors.py` | L0 grids never contain the full budgets and are empty for a single fixed or random effect. |
| C78 | `lme/model_selectors.py` | the caller's dictionary is modified. |
| C79 | `lme/problems.py` | `to_x_y` raises for generated problems without random effects. |
| C170 | `lme/problems.py`, `lme/oracles.py` | `generate` without random effects stores the number 0 as random design of each group, fitting such a problem raises. |
| C173 | `priors.py`, `lme/problems.py` | on a table with an intercept and one further effect, a Gaussian prior also penalises the intercept and its Hessian fills all entries; with more effects every evaluation raises. |
| C174 | `lme/problems.py` | outliers and missing values are put into the features before the answers are computed (the comment says after), so that they are no outliers of the model. |
| C175 | `lme/problems.py` | `true_rmse` is the sum of the squared errors. |
| C176 | `lme/problems.py` | `true_random_effects` in the documented form (array) raises, or is ignored with two groups. |
| C177 | `lme/problems.py` | `groups_sizes` of the caller is overwritten where it is `None`. |
| C178 | `lme/problems.py` | `LMEProblem.generate()` with default arguments raises when all drawn labels are `random`. |
| C179 | `lme/oracles.py` | on problems without random effects a practical fit logs neither `iteration` nor `good_stopping_reason` nor `mu`. |
| C180 | `lme/oracles.py` | not a violation but worth knowing: in practical mode the effective strength of the penalty is `ell * lam` (the prox is taken with step 1 instead of `1 / ell`). |
| C184 | `lme/models.py:445,496` | `SimpleLMEModel` is documented as the model without penalty, but the default `elastic_eps = 1e-4` shrinks its coefficients towards 0: one observation 1 of the feature 1 gives `1 / (1 + 5e-6)`, and shifting answer and start by −2 shifts the result by less than −2 in size. |
| C188 | `solvers.py:82-86`, `lme/oracles.py:1299-1316, 1509-1511` | with the default `warm_start_oracle=True` asking for `loss` in `logger_keys` changes the fitted variances of an SR3 model (`C188_violated`); the claim holds for all other models |
| C190 | `linear/models.py:122-125`, `regularizers.py:204-206, 541-547` | the start of ones survives in the coefficient of a feature without data: `SimpleLinearModel`, `LinearCADModel` with `rho < 1` and `LinearL0Model` report it as selected (`C190_simple_violated`, `C190_cad_violated`, `C190_l0_violated`) |
| C191 | `regularizers.py:159-206`, `linear/models.py:122-125` | of two equal features L0 drops one (`C191_l0_violated`); two opposite features both keep the default start one (`C191_sign_violated`) |
| C192 | `lme/models.py:228-238`, `lme/oracles.py:757-767`, `regularizers.py:739-745` | the start of ones survives, shrunk by the elastic term only, in fixed effects and variances without data (`C192_plain_violated`); the EM initializer needs linearly independent fixed features (`C192_em_violated`, `C192_em_table`) |
| C199 | `lme/oracles.py` | with at least n - 1 effects the marginal AIC falls back to the factor 1, so a model with n - 1 effects beats one of the same loss with n - 2 by 2(n(n-2) - (n-1)); with n = p + 1 the conditional AIC has a negative penalty. |
| C200 | `linear/models.py` | as C190: the start of ones survives in coefficients without data, also with relaxation and in the practical mode. |
| C203 | `linear/models.py` | hard thresholding from the start of ones stops at local solutions: with a larger budget the converged fit can be worse (not an error in the code, but against what a user of the budget expects). |
| C80 | `lme/oracles.py` | if all variances start at zero they stay zero, so `value_function` is not the minimum. |
| C87 | `lme/oracles.py` | with `warm_start=True` the gradient of the value function depends on earlier evaluations: after one at zero variances all later ones are those of a fit without random effects. |
| C88 | `lme/oracles.py`, `solvers.py` | (behaviour) an SR3 fit started with zero variances returns zero variances for all data. |
| C89 | `lme/oracles.py`, `solvers.py` | (behaviour) a practical SR3 fit without random effects returns its start for all data. |
| C90 | `solvers.py` | the practical solver reports `converged = True` always. |
| C91 | `lme/models.py`, `lme/problems.py` | the intercept is regularized by default (the exempting branch is never reached). |
| C92 | `lme/models.py`, `solvers.py` | the practical SR3 mode takes the prox with step 1 instead of `1/ell`. |
| C93 | `lme/oracles.py` | flip probabilities of the SR3 oracle are too small (relaxation added to the Hessian). |
| C94 | `lme/oracles.py` | condition numbers mix singular values of different groups, are infinite for groups with fewer rows than columns, and raise without random effects. |
| C95 | `lme/models.py` | `get_information_criterion` raises for every model with a fixed intercept. |
| C97 | `lme/oracles.py` | the conditional AIC (the default version) multiplies its penalty by the number of parameters, so it is too large for every problem with fixed and random effects. |
| C100 | `regularizers.py` | `L1Regularizer.value` drops `lam` once weights are attached, so for every strength other than 1 some fit with line search logs an increasing loss. |
| C100 | `regularizers.py` | `L0RegularizerLME.value` only compares the total number of non-zeros with the sum of the budgets, so a start that breaks one budget is logged without a penalty and the first iteration can raise the logged loss. |
| C100 | `regularizers.py` | `CADRegularizer.prox` keeps every coefficient beyond `rho`, so a step across `rho` from just below is accepted by the line search although the logged loss rises; with weights other than 0 and 1 `value` caps `w*abs(x)` while `prox` compares `abs(x)` with `rho`, and the loss can rise from the minimiser of the rest. |
| C105 | `linear/models.py` | `stepping="fixed"` with the default step `5e-2` diverges as soon as the largest curvature exceeds 40. |
| C107 | `linear/problems.py` | `obs_std` is documented as the noise of each observation and stored, but never read: fits ignore it. |
| C109 | `regularizers.py` | `L0Regularizer.value` compares a count with `nnz=None`: L0 models with default arguments raise `TypeError` as soon as the loss is logged. |
| C110 | `regularizers.py` | `SCADRegularizer.prox` computes `0/0` when `alpha*lam*w = rho - 1` and `abs(x) = rho*sigma`. `LinearSCADModelSR3(lam=1, practical=True)` has exactly these values for its defaults (`rho=2`, `el=1`). |
| C113 | `lme/models.py` | the EM start leaves out the conditional variances of the random effects and can have a larger loss than the start it replaces. |
| C114 | `lme/oracles.py`, `solvers.py` | a practical SR3 fit in which the prox is never reached (always without random effects, and always if `update_prox_every` is not positive or larger than `max_iter_oracle`) returns its start, unregularized. |
| C118 | `lme/models.py:498, 995, 1174, 1361` | the plain classes choose their default step differently (`5e-2` for the simple model, `1/(lam+1)` for the penalized ones), so that `L1LmeModel()` with `lam = 0` and `SimpleLMEModel()` return different coefficients; the simple model stops after one step on a single observation |
| C128 | `lme/problems.py` | `to_dataframe` names the columns by their roles; with two columns of one role `from_dataframe` fails with `AssertionError`, and intercepts cannot be read back |
| C130 | `solvers.py` | a NaN iterate makes `norm(x - x_prev) > tol` false: a run that overflows stops with `converged=True` and NaN coefficients (fixed default step, one feature of value 16) |
| C132 | `lme/oracles.py` | `np.abs(gamma) > 1e-10` and the tolerances of the criteria are absolute: whether a random effect is predicted, and which coefficients are counted, depends on the units of the target |
| C133 | `linear/models.py` | a fit that raises has already replaced `logger_`; an empty `x0` with `warm_start=True` is accepted and leaves a model that cannot predict |
| C134 | `linear/models.py` | `warm_start` never uses the previous coefficients and never raises `NotFittedError`; `x0` is ignored unless `warm_start=True` |
| C135 | `lme/problems.py` | `LMEStratifiedShuffleSplit` accepts test sizes above 1/2, for which a small group may be missing from the training part; for every such test size there are tables where this happens in every split |
| C140 | `lme/models.py` | `fit_problem` assigns `coef_` before it logs the criteria; if one of them raises (dependent fixed columns), the object has the new coefficients with the old `n_features_in_` |
| C141 | `linear/oracles.py` | `LinearOracleSR3.instantiate` attaches the problem before `np.linalg.inv` may raise (old matrices with the new problem); `LinearOracleSR3(problem)` has a loss but no value function |
| C145 | `linear/models.py`, `linear/oracles.py` | linear SR3 models accept `el = 0` but then return the starting vector whatever the data (or raise `ZeroDivisionError` in practical mode); a negative `el` gives NaN |
| C165 | `lme/oracles.py` | `optimal_gamma_ip` starts with multipliers one and the mean variance as target, so a start with equal variances and gradient one is returned without any iteration although it is not stationary |
| C156 | `regularizers.py` | `L0RegularizerLME.prox` selects the fixed effects first and then drops the variances of those not selected, however large: the result is not the projection its docstring describes and can be arbitrarily far from it. |
| C84 | `lme/model_selectors.py` | pre-selected covariates without an intercept make six of eight models raise and shift the weights for L0. |
| C85 | `lme/model_selectors.py` | with an intercept, names and coefficients are shifted by one. |

## Mutation testing

`seeded/LOG.jsonl` records, for each edit of a definition in a scratch copy, the claim it breaks and the theorems that stop being provable. The
scratch copy replaces each failing proof by a placeholder until the modules build; a theorem counts as failed when it depends on a placeholder.
Edits that no theorem notices are kept in the log. In the last queue there were two: `K2` (default budgets of the plain L0 model, of which C117 claims only
that the fits return) and `K7` (the default of `take_expected_value`, which `take_only_positive_part = True` overrides).

## Not modelled

Plotting/IO (yaml dump, print), random number generation itself (draws are arbitrary inputs, or random variables in C142–C146), pandas internals,
warnings. Rounding is modelled only in `Model/Floats.lean` (the solver, the linear oracle and the proximal operators, C130–C131, C155); everything else uses exact arithmetic.
Corner cases of the numerical libraries on empty data (zero features or zero groups in calls of numpy reductions) are modelled only where a definition says so.
