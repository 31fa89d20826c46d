{"id": "C01", "title": "scramble/unscramble round trip", "statement": "For any list, scramble returns a reordering of it and unscramble undoes it exactly, so that results computed on a scrambled work list come back in the original order.", "quantifier": "every list of every length (odd, even, empty) and every function mapped over the scrambled list", "why_tests_cant": "Tests try a few lengths; the claim is about the index arithmetic for every length and parity.", "anchors": [{"file": "pytwoway/util.py", "symbols": ["scramble", "unscramble"]}, {"file": "pytwoway/attrition.py", "symbols": ["Attrition._attrition_single"]}]}
{"id": "C02", "title": "Weighted variance and covariance are coherent", "statement": "weighted_cov of a vector with itself and one weight vector is weighted_var; weighted_cov is symmetric, shift-invariant, bilinear, and with dof=0 invariant to rescaling all weights; with nonnegative weights of positive sum weighted_var is nonnegative and is zero exactly when the vector is constant on the support of the weights; var(x+y)=var(x)+var(y)+2cov(x,y).", "quantifier": "all vectors of all lengths and all weight vectors meeting the stated sign condition", "why_tests_cant": "An algebraic law over all real vectors; tests compare finitely many numbers up to tolerance.", "anchors": [{"file": "pytwoway/util.py", "symbols": ["weighted_mean", "weighted_var", "weighted_cov"]}]}
{"id": "C03", "title": "Weighted quantile stays in range and is monotone", "statement": "weighted_quantile raises ValueError exactly when some requested quantile is outside [0,1]; otherwise every returned value lies between the minimum and maximum of the data, a larger requested quantile never gives a smaller value, and the answer does not depend on the order in which (value, weight) pairs are given.", "quantifier": "all non-empty value vectors, all positive weight vectors, all requested quantiles, both old_style settings", "why_tests_cant": "Monotonicity and order-independence are universally quantified over data and quantiles.", "anchors": [{"file": "pytwoway/util.py", "symbols": ["weighted_quantile"]}]}
{"id": "C04", "title": "logsumexp is exact and cannot overflow", "statement": "logsumexp returns log(sum(exp(a))) for each row, and every exponential it evaluates has a nonpositive argument with at least one argument equal to zero, so the sum it takes the log of lies in [1, n].", "quantifier": "all non-empty rows of real numbers, however large or small", "why_tests_cant": "Overflow freedom is a statement about every magnitude of input.", "anchors": [{"file": "pytwoway/util.py", "symbols": ["logsumexp", "exp_", "log_"]}]}
{"id": "C05", "title": "Fast product diagonals equal the diagonal of the product", "statement": "diag_of_sp_prod and diag_of_prod return exactly the diagonal of m1 @ m2 for every pair of conformable matrices of any shape, including those that take the transposed branch; DxSP, SPxD, DxM and MxD equal multiplication by the diagonal matrix.", "quantifier": "all matrix pairs of conformable shape (tall, wide, square)", "why_tests_cant": "Shape-dependent branches must agree for all shapes and entries.", "anchors": [{"file": "pytwoway/util.py", "symbols": ["diag_of_sp_prod", "diag_of_prod", "DxSP", "SPxD", "DxM", "MxD"]}]}
{"id": "C06", "title": "Gaussian log density helpers", "statement": "lognormpdf returns the log of the N(mu, sd^2) density whether given sd or var (with var=sd^2 they agree), raises ValueError exactly when both or neither of sd and var is given, and fast_lognormpdf with grouped parameters returns the same numbers as lognormpdf with the parameters expanded per observation.", "quantifier": "all observations, means, positive standard deviations and all group assignments", "why_tests_cant": "Equality of two code paths for all inputs.", "anchors": [{"file": "pytwoway/util.py", "symbols": ["lognormpdf", "fast_lognormpdf"]}]}
{"id": "C07", "title": "Adding constraints intersects feasible sets", "statement": "After any sequence of add_constraints calls a parameter vector is feasible exactly when it satisfies every added constraint; the order of adding does not matter, adding the same constraint twice changes nothing, and clear_constraints makes every vector feasible again.", "quantifier": "all sequences of add_constraints/clear_constraints calls and all parameter vectors", "why_tests_cant": "Quantifies over every history of calls.", "anchors": [{"file": "pytwoway/constraints/constraints.py", "symbols": ["QPConstrained.add_constraints", "QPConstrained._add_constraint", "QPConstrained.clear_constraints"]}]}
{"id": "C08", "title": "Monotonic constraint means monotone in worker type", "statement": "A parameter vector satisfies Monotonic(md) exactly when, in every period and at every firm type, the effect grows by at least md (falls, if increasing=False) from each worker type to the next; hence any two worker types l<l' differ by at least (l'-l)*md.", "quantifier": "all numbers of worker and firm types, all numbers of periods, all md, all parameter vectors", "why_tests_cant": "The matrix is built from index arithmetic on nl, nk and nt; must be right for every dimension.", "anchors": [{"file": "pytwoway/constraints/constraints.py", "symbols": ["Monotonic"]}]}
{"id": "C09", "title": "MonotonicMean and MinFirmType encode ordering of means", "statement": "MonotonicMean is satisfied exactly when each worker type's mean effect over firm types (per period, or averaged over the selected periods when cross_period_mean) exceeds the previous worker type's by at least md; MinFirmType is satisfied exactly when the chosen firm type's mean effect over worker types is lower (is_min) or higher (not is_min) than every other firm type's by at least md.", "quantifier": "all dimensions, periods, margins, min firm types and parameter vectors", "why_tests_cant": "Matrix built from index arithmetic; every dimension matters.", "anchors": [{"file": "pytwoway/constraints/constraints.py", "symbols": ["MonotonicMean", "MinFirmType"]}]}
{"id": "C10", "title": "Linear and LinearAdditive encode (additive) linearity", "statement": "LinearAdditive is satisfied in a period exactly when there are a slope delta and firm effects psi with A[l,k]=psi[k]+l*delta for all l,k (so the additive form alpha[l]+psi[k] with alpha linear in l; every additive form when there are two worker types); Linear is satisfied exactly when the differences between consecutive worker types are equal at each firm type.", "quantifier": "all dimensions nl, nk >= 2, all selected periods, all parameter vectors", "why_tests_cant": "An existential characterisation of a matrix equation for all dimensions.", "anchors": [{"file": "pytwoway/constraints/constraints.py", "symbols": ["Linear", "LinearAdditive"]}]}
{"id": "C11", "title": "Normalisation constraints pin exactly the documented entries", "statement": "NormalizeLowest forces the (lowest worker type, min firm type) effect to 0 (per period, or on average over the selected periods), NormalizeAll forces the min-firm-type effect of every worker type to 0 likewise, and NoWorkerTypeInteraction makes the effect equal across worker types; in each case a vector is feasible if and only if that holds, and no other entry is restricted.", "quantifier": "all dimensions, periods, min firm types and parameter vectors", "why_tests_cant": "If-and-only-if over all parameter vectors and dimensions.", "anchors": [{"file": "pytwoway/constraints/constraints.py", "symbols": ["NormalizeLowest", "NormalizeAll", "NoWorkerTypeInteraction"]}]}
{"id": "C12", "title": "Stationary means equal across the constrained periods", "statement": "Stationary(nwt) is satisfied exactly when the effects of the constrained worker types (all of them for nwt=-1, the first nwt otherwise) are equal for every firm type in every period.", "quantifier": "all nl, nk, nt, nwt and parameter vectors", "why_tests_cant": "The column index formula must be right for all nl, nk; tests with nl==nk hide a transposition.", "anchors": [{"file": "pytwoway/constraints/constraints.py", "symbols": ["Stationary"]}]}
{"id": "C13", "title": "StationaryFirmTypeVariation means equal demeaned profiles", "statement": "StationaryFirmTypeVariation is satisfied exactly when, for every worker type, the effect minus its mean over firm types is the same in every selected period, i.e. A_t - mean_k A_t = A_1 - mean_k A_1.", "quantifier": "all dimensions, period selections and parameter vectors", "why_tests_cant": "If-and-only-if over all dimensions and vectors.", "anchors": [{"file": "pytwoway/constraints/constraints.py", "symbols": ["StationaryFirmTypeVariation"]}]}
{"id": "C14", "title": "Bound constraints are exact", "statement": "BoundedBelow(lb)/BoundedAbove(ub) are satisfied exactly when every parameter of every period is >= lb / <= ub.", "quantifier": "all dimensions, bounds and parameter vectors", "why_tests_cant": "If-and-only-if over all dimensions and vectors.", "anchors": [{"file": "pytwoway/constraints/constraints.py", "symbols": ["BoundedBelow", "BoundedAbove"]}]}
{"id": "C15", "title": "FE estimator solves the weighted two-way least-squares problem", "statement": "For any panel, the worker and firm effects returned by FEEstimator (with the first firm normalised to 0) satisfy the weighted normal equations, and no other choice of worker and firm effects gives a smaller weighted sum of squared residuals, provided the inner linear solver returns a solution of the system it is given.", "quantifier": "every panel (any numbers of workers, firms, observations), every positive weight vector and every outcome vector", "why_tests_cant": "Optimality among all alternatives, for every dataset.", "anchors": [{"file": "pytwoway/fe.py", "symbols": ["FEEstimator._prep_matrices", "FEEstimator._estimate_ols", "FEEstimator._mult_AAinv", "FEEstimator._solve"]}]}
{"id": "C16", "title": "FE estimates are unique and exact on connected noise-free data", "statement": "If the worker-firm graph is connected, the estimates are the only minimiser with the first firm at 0; and if the outcome is exactly alpha[i]+psi[j], the estimates equal psi[j]-psi[first] and alpha[i]+psi[first], whatever the positive weights.", "quantifier": "every connected bipartite panel, every positive weight vector, every true effect vector", "why_tests_cant": "Connectedness is a reachability property over graphs of every size.", "anchors": [{"file": "pytwoway/fe.py", "symbols": ["FEEstimator._prep_matrices", "FEEstimator._estimate_ols", "FEEstimator._attach_fe_estimates"]}]}
{"id": "C17", "title": "Exact leverages are a hat-matrix diagonal", "statement": "The exact leverage P_ii of an observation is the change in its fitted value per unit change of its own outcome, lies in [0,1], and over all observations sums to the number of estimated parameters (workers + firms - 1). Without weights the stored leverages are these for every observation; with weights they are stored for movers and left at 0 for stayers.", "quantifier": "every connected panel with positive weights", "why_tests_cant": "Bounds on a computed projection for every dataset.", "anchors": [{"file": "pytwoway/fe.py", "symbols": ["FEEstimator._compute_leverages_Pii_exact", "FEEstimator._mult_AAinv", "FEEstimator._compute_Pii"]}]}
{"id": "C18", "title": "Leave-one-out variance estimates are unbiased and equal the leave-one-out prediction formula", "statement": "With exact leverages P_ii<1, the heteroskedastic variance estimate used for observation i, (Y_i - mean Y)*(Y_i - fitted_i)/(1-P_ii), equals (Y_i - mean Y) times the residual of predicting observation i from the fit without i, and its expectation under independent mean-zero errors is exactly that observation's error variance.", "quantifier": "every panel in which no observation has leverage 1, every true effect vector and every profile of error variances", "why_tests_cant": "A statement about an expectation over all error distributions.", "anchors": [{"file": "pytwoway/fe.py", "symbols": ["FEEstimator._estimate_Sii_he", "FEEstimator._compute_Pii"]}]}
{"id": "C19", "title": "Homoskedastic bias correction is unbiased", "statement": "With exact traces, the HO-corrected estimate of every requested variance or covariance (plug-in minus sigma2 times trace) has expectation equal to the true component when the errors are independent with common variance (scaled by the observation weights), and the variance estimate sigma2 has expectation sigma2.", "quantifier": "every panel, every quadratic form requested, every true effect vector and error variance", "why_tests_cant": "Expectation over all error distributions, for every dataset.", "anchors": [{"file": "pytwoway/fe.py", "symbols": ["FEEstimator._estimate_exact_trace_ho", "FEEstimator._estimate_exact_trace_sigma_2", "FEEstimator._estimate_sigma_2_ho", "FEEstimator._construct_AAinv_components_full"]}]}
{"id": "C20", "title": "Heteroskedastic bias correction is unbiased", "statement": "With exact leverages and traces, the HE-corrected estimate of every requested component has expectation equal to the true component under independent errors with arbitrary observation-specific variances.", "quantifier": "every panel without leverage-1 observations, every quadratic form requested, every variance profile", "why_tests_cant": "Expectation over all error distributions, for every dataset.", "anchors": [{"file": "pytwoway/fe.py", "symbols": ["FEEstimator._estimate_exact_trace_he", "FEEstimator._estimate_Sii_he"]}]}
{"id": "C21", "title": "Random-probe traces are unbiased", "statement": "The approximated traces used by the homoskedastic and heteroskedastic corrections and by the error-variance estimate (Hutchinson and Hutch++) have, over the random +-1 probes, expectation equal to the trace they approximate, for any number of draws, any requested pair of components and any dataset; so the corrected components have the same expectation as with the right trace.", "quantifier": "every panel, every requested component, any positive number of draws", "why_tests_cant": "Expectation over all 2^n sign vectors, every n.", "anchors": [{"file": "pytwoway/fe.py", "symbols": ["FEEstimator._estimate_approximate_trace_ho", "FEEstimator._estimate_approximate_trace_he", "FEEstimator._estimate_approximate_trace_sigma_2"]}]}
{"id": "C22", "title": "Approximate leverages are well-formed and independent of batching", "statement": "The approximate leverages combine per-batch averages so that splitting the same draws over several cores gives the same estimate as a single pass over all of them when batches have equal size, each estimate P_ii/(P_ii+M_ii) lies in [0,1], and the corrected estimates of P_ii and M_ii sum to 1.", "quantifier": "every dataset, every number of draws and cores dividing them", "why_tests_cant": "Quantifies over every partition of work between processes.", "anchors": [{"file": "pytwoway/fe.py", "symbols": ["FEEstimator._estimate_approximate_leverages", "FEEstimator._leverage_approx", "FEEstimator._compute_leverages_Pii_approx"]}]}
{"id": "C23", "title": "Plug-in components are the weighted (co)variances of attached effects", "statement": "The plug-in components computed through the Q classes from the parameter vector equal the weighted variance/covariance of the worker/firm effect attached to each observation, so that var(psi+alpha)=var(psi)+var(alpha)+2cov(psi,alpha), variances are nonnegative, and none changes when a constant is moved from firm to worker effects.", "quantifier": "every panel, weight vector and effect vector", "why_tests_cant": "Algebraic identities on every dataset.", "anchors": [{"file": "pytwoway/Q/Q.py", "symbols": ["VarPsi", "VarAlpha", "CovPsiAlpha", "VarPsiPlusAlpha"]}, {"file": "pytwoway/fe.py", "symbols": ["FEEstimator._construct_Q", "FEEstimator._estimate_fe"]}]}
{"id": "C24", "title": "Control-variable estimator keeps coefficients apart", "statement": "FEControlEstimator assigns each covariate (worker, firm, and every control) a contiguous range of coefficients; the ranges are disjoint and cover the coefficient vector, and unpacking returns for each categorical covariate one coefficient per category with the first category at 0 (workers excepted) and one coefficient per continuous covariate; the attached columns of all covariates add up to the fitted value, and a variance component of a covariate is that of its attached column.", "quantifier": "every list of covariates with distinct names (other than psi and alpha), every number of categories, every coefficient vector", "why_tests_cant": "Layout arithmetic for every list of covariates.", "anchors": [{"file": "pytwoway/fecontrol.py", "symbols": ["FEControlEstimator._prep_matrices", "FEControlEstimator._unpack_gamma_hat"]}]}
{"id": "C25", "title": "Clustered standard errors cluster every pair sharing a group", "statement": "The clustered covariance uses the residual cross-products of exactly those pairs of observations that share a cluster (all pairs in the same group, and no others), every observation being in its own cluster.", "quantifier": "every dataset, every choice of cluster covariates", "why_tests_cant": "A claim about all pairs of rows of every dataset.", "anchors": [{"file": "pytwoway/fecontrol.py", "symbols": ["FEControlEstimator._estimate_clustered_se"]}]}
{"id": "C26", "title": "CRE leave-out means exclude exactly the own observation or cluster", "statement": "In CREEstimator the leave-one-out firm mean attached to a stayer row equals the mean outcome of all other stayers at that firm, and the leave-cluster-out means attached to a mover row equal the means over the movers leaving (joining) that firm whose other cluster differs, whenever such rows exist; the within-cluster moments are the covariances of own outcomes with exactly these means over exactly the rows for which they exist.", "quantifier": "every dataset, firm, row and cluster assignment", "why_tests_cant": "Recovered from totals by algebra; must hold for every group size.", "anchors": [{"file": "pytwoway/cre.py", "symbols": ["CREEstimator._estimate_within_cluster"]}]}
{"id": "C27", "title": "CRE within-cluster parameters invert the moment map", "statement": "If the within-cluster moments are exactly those generated by the model (firm variance, worker variance, their covariance, worker sorting between origin and destination firm), the within-cluster parameters the estimator reports equal the ones that generated them.", "quantifier": "all parameter values of the model", "why_tests_cant": "An algebraic inversion over all parameter values.", "anchors": [{"file": "pytwoway/cre.py", "symbols": ["CREEstimator.__estimate_within_parameters", "CREEstimator._estimate_within_cluster"]}]}
{"id": "C28", "title": "CRE results decompose additively", "statement": "In the CRE result dictionary each total equals its between plus its within part, wo_btw=True makes every between part zero so that the totals are the within parts, and var_y is the variance of the cross-section outcome.", "quantifier": "all values of the estimated parameters", "why_tests_cant": "Holds for every parameter vector.", "anchors": [{"file": "pytwoway/cre.py", "symbols": ["CREEstimator.__collect_res", "CREEstimator.fit"]}]}
{"id": "C29", "title": "Borovickova-Shimer moments are leave-out unbiased", "statement": "The Borovickova-Shimer estimator's within-group covariance terms use only pairs of distinct observations of the same worker (firm), so when observations of one worker are draws with a common mean and independent noise the estimated worker (firm) variance has no noise term.", "quantifier": "every panel in which each worker and firm has at least two observations, every noise variance", "why_tests_cant": "Algebra of leave-out products over every group size.", "anchors": [{"file": "pytwoway/borovickovashimer.py", "symbols": ["BSEstimator.fit"]}]}
{"id": "C30", "title": "Sorkin values are the stationary revealed-preference ranking", "statement": "When the iteration of SorkinEstimator converges exactly, the returned values satisfy the fixed-point equation of the flow matrix and are scale-free: every firm's (exponentiated) value times its outflow equals the flow-weighted sum of the values of the firms its workers left to it.", "quantifier": "every flow matrix with positive outflows", "why_tests_cant": "A fixed-point property for every flow network.", "anchors": [{"file": "pytwoway/sorkin.py", "symbols": ["SorkinEstimator.fit"]}]}
{"id": "C31", "title": "E-step posteriors are probability vectors given by Bayes' rule", "statement": "For movers and stayers, the posterior worker-type probabilities of each observation are nonnegative, sum to one, and equal prior times Gaussian likelihood of both wages divided by the total over types.", "quantifier": "all data, all parameters with positive standard deviations and positive priors", "why_tests_cant": "Bayes identity for every observation and parameter value.", "anchors": [{"file": "pytwoway/blm.py", "symbols": ["BLMModel._fit_movers", "BLMModel.fit_stayers"]}, {"file": "pytwoway/util.py", "symbols": ["logsumexp"]}]}
{"id": "C32", "title": "Type-proportion updates are proper when every cell is observed, and fail loudly otherwise", "statement": "The pk1 (pk0) update returns, for every firm-type pair (type), the average posterior over observations of that pair after adding the Dirichlet prior, a vector of nonnegative entries summing to one; if some pair is unobserved the movers' update raises an error rather than storing an improper matrix.", "quantifier": "every dataset, every posterior matrix, every d_prior >= 1, every nk and nl", "why_tests_cant": "Depends on which cells are empty, for all datasets.", "anchors": [{"file": "pytwoway/blm.py", "symbols": ["BLMModel._fit_movers", "BLMModel.fit_stayers"]}]}
{"id": "C33", "title": "EM never lowers the likelihood", "statement": "In fit_stayers with no Dirichlet prior and unit weights the average log-likelihood recorded at each iteration never decreases; for movers one E+M step with the closed-form unconstrained update never lowers the log-likelihood.", "quantifier": "every dataset, starting value and number of iterations", "why_tests_cant": "Monotonicity along every execution from every start.", "anchors": [{"file": "pytwoway/blm.py", "symbols": ["BLMModel.fit_stayers", "BLMModel._fit_movers"]}]}
{"id": "C34", "title": "M-step returns weighted means and variances", "statement": "Without controls or constraints, the M-step's effects are the posterior-weighted mean wages and its squared standard deviations the posterior-weighted mean squared residuals of each (worker type, firm type) cell, bounded below by the configured bound; they minimise the weighted least-squares objective.", "quantifier": "every dataset and posterior matrix in which each cell has positive weight", "why_tests_cant": "Optimality for every dataset.", "anchors": [{"file": "pytwoway/blm.py", "symbols": ["BLMModel._fit_movers"]}]}
{"id": "C35", "title": "Sorting types is a relabelling", "statement": "Sorting worker (and firm) types reorders every parameter consistently: the sorted mean effects are nondecreasing in worker type (and in firm type), no value is lost, sorting twice changes nothing, and the likelihood of any (suitably relabelled) dataset is unchanged, including the pairwise pk1 matrix indexed by k1+nk*k2.", "quantifier": "all nl, nk, all parameter values, both sort options", "why_tests_cant": "Index arithmetic on a flattened pair index, for all dimensions and permutations.", "anchors": [{"file": "pytwoway/blm.py", "symbols": ["BLMModel._sort_parameters"]}]}
{"id": "C36", "title": "Normalising effects does not change predictions", "statement": "Normalising the type effects against categorical controls leaves the predicted mean wage of every (worker type, firm type, control category, period) unchanged, sets the documented entries to zero, and keeps stationary controls stationary.", "quantifier": "all dimensions, all parameter values, all combinations of time-varying/stationary, interacted/non-interacted controls", "why_tests_cant": "Every branch combination and every parameter value.", "anchors": [{"file": "pytwoway/blm.py", "symbols": ["BLMModel._normalize"]}]}
{"id": "C37", "title": "Reallocation draws worker types from the population proportions", "statement": "With reallocate=True worker types are drawn for every worker from one common probability vector equal to the population share of each worker type implied by the model (type proportions weighted by the number of workers in each firm type or pair), for every combination of reallocate_jointly and reallocate_period.", "quantifier": "all nk, nl, all flow matrices and proportions, all six option combinations", "why_tests_cant": "Weights are combined through reshapes of a flattened pair index; asymmetric flows expose errors only for some inputs.", "anchors": [{"file": "pytwoway/blm.py", "symbols": ["_simulate_types_wages"]}]}
{"id": "C38", "title": "Estimator keeps the best-connected of the most likely models", "statement": "BLMEstimator.fit returns, among all runs, a model whose connectedness is maximal among the n_best runs of highest likelihood, for every order in which runs finish.", "quantifier": "every list of candidate models, every n_best >= 1", "why_tests_cant": "Quantifies over every list of candidate results.", "anchors": [{"file": "pytwoway/blm.py", "symbols": ["BLMEstimator.fit"]}]}
{"id": "C39", "title": "Bootstrap and variance decomposition leave the user's data as it was", "statement": "BLMBootstrap.fit and BLMVarianceDecomposition.fit restore the outcome and cluster columns of the data passed in, whatever happens while simulated wages are being fitted.", "quantifier": "every dataset, every number of samples and every point at which an inner step raises", "why_tests_cant": "Quantifies over crash points.", "anchors": [{"file": "pytwoway/blm.py", "symbols": ["BLMBootstrap.fit", "BLMVarianceDecomposition.fit"]}]}
{"id": "C40", "title": "Single-block fits update what they say and restore settings", "statement": "fit_A, fit_S and fit_pk run to completion updating only the named block of parameters, and leave the model's settings as they were, also when the fit raises.", "quantifier": "every dataset and every prior setting of the update flags", "why_tests_cant": "Quantifies over settings and crash points.", "anchors": [{"file": "pytwoway/blm.py", "symbols": ["BLMModel.fit_A", "BLMModel.fit_S", "BLMModel.fit_pk", "BLMModel.fit_movers_cstr_uncstr", "BLMModel._fit_movers"]}]}
{"id": "C41", "title": "Interacted model's linear estimator returns a1,b1 satisfying the moment condition", "statement": "In the interacted BLM linear estimator the coefficient vector is laid out so that, for parameters a,b with all b nonzero, the moment y1/b1(j1)-a1/b1(j1) = y2/b2(j2)-a2/b2(j2) holds for each mover row exactly when the regression residual is zero, and the returned effects are read from the matching coefficients.", "quantifier": "every number of firms, every mover row, all parameter values", "why_tests_cant": "Layout arithmetic for every number of firms and all parameter values.", "anchors": [{"file": "pytwoway/blm_interacted.py", "symbols": ["InteractedBLMModel._fit_a_b_linear"]}]}
{"id": "C42", "title": "Interacted fixed point for a and alpha solves the weighted least squares", "statement": "For given b, the a and alpha returned by the fixed-point step minimise the weighted sum of squared residuals of y = a[j] + b[j]*alpha[i] with the last firm's intercept normalised.", "quantifier": "every panel, weights and b for which the worker blocks are non-zero", "why_tests_cant": "Optimality for every dataset.", "anchors": [{"file": "pytwoway/blm_interacted.py", "symbols": ["InteractedBLMModel._fit_a_alpha_fixed_point"]}]}
{"id": "C43", "title": "Simulated identities are consistent", "statement": "SimBLM.simulate gives movers and stayers disjoint consecutive worker ids; every mover changes firm; stayers do not; the firm id of every stayer lies in exactly one cluster; the numbers of movers and stayers by type equal the requested ones.", "quantifier": "every parameter setting and every sequence of random draws for which simulate returns", "why_tests_cant": "Quantifies over all random draws.", "anchors": [{"file": "pytwoway/simblm.py", "symbols": ["SimBLM._simulate_movers", "SimBLM._simulate_stayers", "SimBLM.simulate"]}]}
{"id": "C44", "title": "Simulated movers' firms belong to their clusters", "statement": "In SimBLM.simulate, the firm ids j1 and j2 of every mover belong to the clusters g1 and g2 recorded on that row.", "quantifier": "every flow matrix and every sequence of random draws", "why_tests_cant": "Depends on row order versus group order, for every flow matrix.", "anchors": [{"file": "pytwoway/simblm.py", "symbols": ["SimBLM.simulate"]}]}
{"id": "C45", "title": "Simulated parameters satisfy the requested structure", "statement": "SimBLM parameters honour the options: stationary_A makes both periods' means equal, stationary_firm_type_variation makes the demeaned profiles equal across periods, strictly_monotone_a makes each worker type's means increasing in firm type, and worker types are sorted by mean.", "quantifier": "every dimension, every random draw, every option combination", "why_tests_cant": "Broadcasting along the wrong axis is invisible for some shapes.", "anchors": [{"file": "pytwoway/simblm.py", "symbols": ["SimBLM._gen_params", "SimBLM._sort_A"]}]}
{"id": "C46", "title": "Dynamic simulation parameters honour endogeneity and stationarity options", "statement": "SimDynamicBLM parameters with stationary_A and/or without endogeneity/state dependence: stationary means are equal across periods, switched-off effects are zero, and switching an effect off changes no other parameter. Worker types and firm types are numbered in the order of their mean wages in period '12', all periods being rearranged in the same way; with strictly_monotone_a wages ascend in the firm type for every worker type and period.", "quantifier": "every dimension, draw and option combination", "why_tests_cant": "Aliasing between arrays: depends on the history of assignments.", "anchors": [{"file": "pytwoway/simdblm.py", "symbols": ["SimDynamicBLM._gen_params"]}]}
{"id": "C47", "title": "Increasing attrition samples are nested and reproducible", "statement": "AttritionIncreasing yields one sample per requested fraction; each sample's movers include the previous sample's, the sample sizes follow the requested fractions, and the user's cleaning parameters are the same after iteration as before.", "quantifier": "every dataset, every increasing list of fractions, every random order, every abandonment point of the iterator", "why_tests_cant": "Quantifies over random draws and early termination.", "anchors": [{"file": "pytwoway/attrition_utils/attrition_utils.py", "symbols": ["AttritionIncreasing", "AttritionDecreasing"]}]}
{"id": "C48", "title": "Attrition results are assembled per fraction", "statement": "The combined attrition results list, for each estimator and each fraction in increasing order, the result of that fraction's runs, for both increasing and decreasing attrition.", "quantifier": "every list of fractions, every number of runs", "why_tests_cant": "Quantifies over all lists of fractions.", "anchors": [{"file": "pytwoway/attrition.py", "symbols": ["Attrition._combine_res", "Attrition.attrition"]}]}
{"id": "C49", "title": "Monte Carlo results are indexed by simulation", "statement": "monte_carlo stores the estimates of the i-th simulation in position i of every result array, with one or several cores, and overrides only the documented parameters.", "quantifier": "every number of simulations and cores", "why_tests_cant": "Quantifies over schedules of workers.", "anchors": [{"file": "pytwoway/montecarlo.py", "symbols": ["MonteCarlo.monte_carlo", "MonteCarlo._monte_carlo_interior"]}]}
{"id": "C50", "title": "Connectedness measure is the second-smallest Laplacian eigenvalue and zero for disconnected types", "statement": "The connectedness of a fitted model is the minimum over worker types of the second smallest eigenvalue of the normalised Laplacian of that type's firm-type flow graph; it is symmetric under relabelling of firm types, and zero when some worker type's flow graph is disconnected.", "quantifier": "every nk >= 2, nl, flow matrix and proportions", "why_tests_cant": "An eigenvalue statement for every graph.", "anchors": [{"file": "pytwoway/blm.py", "symbols": ["BLMModel.compute_connectedness_measure"]}, {"file": "pytwoway/blm_dynamic.py", "symbols": ["DynamicBLMModel.compute_connectedness_measure"]}]}
{"id": "C51", "title": "Borovickova-Shimer simulator produces balanced matches", "statement": "SimBS draws job counts until workers' and firms' totals agree: every worker has at least two jobs, every firm at least two employees, every worker-side job slot is assigned to exactly one firm and each firm receives exactly its drawn number of matches; SimBS rejects with ValueError exactly the parameter sets for which the implied noise variance would be negative.", "quantifier": "every parameter setting and every sequence of random draws for which the loop ends", "why_tests_cant": "Quantifies over all random draws and loop lengths.", "anchors": [{"file": "pytwoway/simbs.py", "symbols": ["SimBS.__init__", "SimBS._simulate_workers_firms", "SimBS.simulate"]}]}
{"id": "C52", "title": "Preconditioners act as the documented operators", "statement": "The Jacobi preconditioner multiplies by the inverse diagonal; every preconditioner is linear and symmetric positive definite when built from the estimator's matrix, so that preconditioned CG solves the same system.", "quantifier": "every matrix with positive diagonal, every vector", "why_tests_cant": "Operator identity for all vectors.", "anchors": [{"file": "pytwoway/preconditioners/jacobi.py", "symbols": ["jacobi"]}, {"file": "pytwoway/preconditioners/vcycle.py", "symbols": ["vcycle", "jacobi_step"]}, {"file": "pytwoway/preconditioners/ichol.py", "symbols": ["ichol", "CholeskyDecomposition"]}]}
{"id": "C53", "title": "Starting values for rho match the stayers' moments", "statement": "rho_init's moment matrix maps the structural variances to the covariances of the four wages implied by the model, so at the true rho the moment residuals are zero.", "quantifier": "all rho values and variances", "why_tests_cant": "Polynomial identity for all parameters.", "anchors": [{"file": "pytwoway/blm_dynamic.py", "symbols": ["_var_stayers", "rho_init"]}]}
{"id": "C54", "title": "Dynamic normalisation does not change predictions", "statement": "The dynamic model's normalisation runs for every kind of categorical control and leaves predicted means unchanged.", "quantifier": "all combinations of control kinds, all parameter values", "why_tests_cant": "Every branch combination.", "anchors": [{"file": "pytwoway/blm_dynamic.py", "symbols": ["DynamicBLMModel._normalize"]}]}
{"id": "C55", "title": "Rho update minimises the weighted residuals", "statement": "Each rho update of the dynamic model minimises the posterior-weighted sum of squared residuals over rho, given the other parameters, whenever the regressor is not identically zero.", "quantifier": "every dataset and posterior matrix", "why_tests_cant": "Optimality for every dataset.", "anchors": [{"file": "pytwoway/blm_dynamic.py", "symbols": ["DynamicBLMModel._fit_movers"]}]}
{"id": "C56", "title": "Options are validated before work starts", "statement": "Unsupported option combinations of the control-variable estimator and of the interacted and constrained models are rejected with an error instead of producing numbers, and each supported combination selects exactly one estimation path.", "quantifier": "all combinations of option values", "why_tests_cant": "The full table of option combinations.", "anchors": [{"file": "pytwoway/fecontrol.py", "symbols": ["FEControlEstimator.fit"]}, {"file": "pytwoway/blm_interacted.py", "symbols": ["InteractedBLMModel._fit_a_b_linear"]}, {"file": "pytwoway/fe.py", "symbols": ["FEEstimator.fit"]}]}
{"id": "C57", "title": "Long-format melting labels every value with its own indices", "statement": "melt turns an array into a table with one row per cell in which the index columns are the cell's own indices.", "quantifier": "every array shape", "why_tests_cant": "The order of index grids and of the flattened values must agree for every shape; square arrays with symmetric content hide a swap.", "anchors": [{"file": "pytwoway/util.py", "symbols": ["melt"]}]}
{"id": "C58", "title": "A constrained solve minimises over exactly the added constraints", "statement": "After any sequence of additions, a constrained solve returns a vector that satisfies every added constraint and no vector satisfying all of them has a smaller objective; check_feasible accepts exactly the feasible constraint sets; pad adds parameters without changing what the old ones must satisfy.", "quantifier": "all dimensions, constraint histories and objectives, provided the external QP solver is right", "why_tests_cant": "Optimality over a continuum of vectors for every history.", "anchors": [{"file": "pytwoway/constraints/constraints.py", "symbols": ["QPConstrained.solve", "QPConstrained.check_feasible", "QPConstrained.pad"]}]}
{"id": "C59", "title": "Constraints generated by a BLM model do not depend on how control columns are named", "statement": "The constraints a BLM model imposes on its base effects are the user's constraints plus, when some categorical control is constrained, increasing worker-type means and the normalisation fitting the kinds of controls present; the alphabetical order of the control names makes no difference.", "quantifier": "all lists of categorical controls, all constraint parameters, all dimensions and parameter vectors", "why_tests_cant": "All combinations of any number of control columns and all name orders.", "anchors": [{"file": "pytwoway/blm.py", "symbols": ["BLMModel._gen_constraints"]}]}
{"id": "C60", "title": "Stayers get the documented variance estimate", "statement": "With Sii_stayers='firm_mean' a stayer's variance estimate times the row's weight is the weighted average, over movers' rows at the same firm, of weight times variance estimate, and is missing exactly when the firm has no mover; with 'upper_bound' it is the leave-one-out estimate computed from the stayer's own rows, and estimation is refused exactly when such an estimate does not exist.", "quantifier": "all panels with any mix of movers and stayers, weighted or not, and all leverages", "why_tests_cant": "Each stayer's estimate depends on all other rows of the firm or worker; sample panels fix one configuration.", "anchors": [{"file": "pytwoway/fe.py", "symbols": ["FEEstimator._estimate_Sii_he"]}]}
{"id": "C61", "title": "Estimates with controls are a weighted least-squares fit", "statement": "The columns FEControlEstimator attaches minimise the weighted sum of squared residuals over all firm effects, worker effects, effects of every category of every categorical control and coefficients of the continuous controls, whatever normalisation those use.", "quantifier": "every dataset, every list of controls, all weights and all alternative effects", "why_tests_cant": "Optimality over a continuum of alternatives for every dataset and list of controls.", "anchors": [{"file": "pytwoway/fecontrol.py", "symbols": ["FEControlEstimator._prep_matrices", "FEControlEstimator._estimate_ols", "FEControlEstimator._attach_fe_estimates"]}]}
{"id": "C62", "title": "Standard errors without clusters match homoskedastic least squares", "statement": "With an empty cluster list, the squared standard error of a continuous control's coefficient is the mean squared residual times the sum of squared coefficients with which outcomes enter the estimate.", "quantifier": "every dataset in which the coefficient is identified, weighted or not", "why_tests_cant": "A relation between two outputs for every dataset.", "anchors": [{"file": "pytwoway/fecontrol.py", "symbols": ["FEControlEstimator._estimate_clustered_se"]}]}
{"id": "C63", "title": "CRE cluster effects are the least-squares fit of wage changes", "statement": "When moves connect all clusters, the cluster effects CREEstimator nets out minimise the sum of squared errors of movers' wage changes predicted by cluster differences, are exact (up to the last cluster) on noise-free data, and the net outcomes average to zero in every cluster and pair of clusters.", "quantifier": "every dataset with connected clusters", "why_tests_cant": "Optimality and identification for every network of moves.", "anchors": [{"file": "pytwoway/cre.py", "symbols": ["CREEstimator.__estimate_between_cluster"]}]}
{"id": "C64", "title": "CRE posterior variance is the posterior expectation of the firm-effect variance", "statement": "With posterior=True the solved firm effects are the posterior means under the prior given by the cluster effects and the within-cluster variance, and var_posterior averages, over the random probes, to the posterior expected variance of firm effects across the cross section.", "quantifier": "every dataset, every positive variance parameters, every number of draws", "why_tests_cant": "An expectation over random probes for every dataset.", "anchors": [{"file": "pytwoway/cre.py", "symbols": ["CREEstimator.__prior_in_diff", "CREEstimator.__prep_posterior_var", "CREEstimator.__compute_posterior_var"]}]}
{"id": "C65", "title": "BS estimator reports the variance of outcomes and gives the same answer by both methods", "statement": "BSEstimator reports the (weighted) variance of outcomes as var(y), reports no variance and no covariance when every worker is paid the same, and its alternative estimator agrees with the standard one; data with returns are rejected.", "quantifier": "every dataset where each worker and firm has at least two observations, weighted or not, both estimators", "why_tests_cant": "An identity between two estimators for every dataset.", "anchors": [{"file": "pytwoway/borovickovashimer.py", "symbols": ["BSEstimator.fit"]}]}
{"id": "C66", "title": "Approximate leverages are corrected for the bias of dividing by a noisy number", "statement": "When FEEstimator approximates leverages with random probes, the factor it multiplies into the observation-level variances removes the second-order bias from dividing by the estimated 1 - leverage.", "quantifier": "every leverage below one, every distribution of the probe draws and every number of draws", "why_tests_cant": "A bias over random draws for every distribution.", "anchors": [{"file": "pytwoway/fe.py", "symbols": ["FEEstimator._estimate_approximate_leverages"]}]}
{"id": "C67", "title": "SorkinAttrition correlates each firm's value with that firm's own effect", "statement": "The correlation reported by SorkinAttrition pairs the revealed-preference value of each firm with the estimated fixed effect of the same firm.", "quantifier": "every vector of estimated effects", "why_tests_cant": "An alignment of indices for every number of firms.", "anchors": [{"file": "pytwoway/sorkin.py", "symbols": ["SorkinAttrition._attrition_interior"]}]}
{"id": "C68", "title": "EM stops and records as documented", "statement": "fit_movers and fit_stayers record one likelihood per iteration, never more than n_iters of them, stop before n_iters only when the last two recorded likelihoods differ by less than the threshold, never continue past such a pair (for movers: while the lowest firm type is unchanged), and record the plain average log-likelihood first and the one with the Dirichlet prior term afterwards.", "quantifier": "every dataset without control variables, every starting value, threshold and number of iterations", "why_tests_cant": "The loop can stop at any iteration; every execution has to be covered.", "anchors": [{"file": "pytwoway/blm.py", "symbols": ["BLMModel.fit_stayers", "BLMModel._fit_movers"]}]}
{"id": "C69", "title": "Fixed-point slopes recover the truth", "statement": "On exact wages a[j] + b[j]*alpha[i] without returns, the fixed-point estimator of the interacted model returns each firm's slope relative to the first firm's, with and without weights; data with returns is rejected with ValueError.", "quantifier": "every number of firms and workers, every mobility pattern connected through pairs of firms sharing at least two workers, every positive weight, every coin flip of the split", "why_tests_cant": "An eigenvector computation over all mobility graphs; tests use one simulated dataset.", "anchors": [{"file": "pytwoway/blm_interacted.py", "symbols": ["InteractedBLMEstimator._fit_b_fixed_point"]}]}
{"id": "C70", "title": "Mean worker effects by firm line up with firms", "statement": "The linear estimator's third result has one entry per firm, entry k being the mean estimated worker effect of firm k's stayers, so that on exact wages it is the mean of the true effects.", "quantifier": "every set of stayers, including firms without any, and every weight", "why_tests_cant": "Alignment breaks only when some firm has no stayers, which a balanced test dataset never has.", "anchors": [{"file": "pytwoway/blm_interacted.py", "symbols": ["InteractedBLMEstimator.fit"]}]}
{"id": "C71", "title": "Simulated wages follow the model the estimator assumes", "statement": "A wage simulated by SimBLM, given the worker's and the firm's types and the controls, has exactly the density that BLMModel's likelihood assigns to it at the true parameters, with any set of controls; and a mover's type is drawn from the row of the type proportions in which the estimator looks that mover up.", "quantifier": "every parameter value, every list of controls, both periods, movers and stayers", "why_tests_cant": "A statement about the law of a random variable.", "anchors": [{"file": "pytwoway/simblm.py", "symbols": ["SimBLM._simulate_movers", "SimBLM._simulate_stayers"]}, {"file": "pytwoway/blm.py", "symbols": ["BLMModel.fit_movers"]}]}
{"id": "C72", "title": "The parametric bootstrap draws wages from the estimated model", "statement": "Wages drawn by the parametric bootstrap and the variance decomposition follow the estimated model's density given the drawn worker types, with or without controls and weights: re-estimating the variance on drawn wages gives the estimated variance on average.", "quantifier": "every parameter value, controls and weights", "why_tests_cant": "A statement about the law of a random variable; depends on how weights enter.", "anchors": [{"file": "pytwoway/blm.py", "symbols": ["_simulate_types_wages", "BLMBootstrap.fit", "BLMVarianceDecomposition.fit"]}]}
{"id": "C73", "title": "Dynamic simulated wages follow the dynamic estimator's model", "statement": "The four wages simulated by SimDynamicBLM for a mover or a stayer, given types and controls, have exactly the joint density that DynamicBLMModel's likelihood assigns to them at the true parameters.", "quantifier": "every parameter value, every list of controls, movers and stayers", "why_tests_cant": "A statement about the joint law of four random variables.", "anchors": [{"file": "pytwoway/simdblm.py", "symbols": ["SimDynamicBLM._simulate_movers", "SimDynamicBLM._simulate_stayers"]}, {"file": "pytwoway/blm_dynamic.py", "symbols": ["DynamicBLMModel._fit_movers", "DynamicBLMModel.fit_stayers"]}]}
{"id": "C74", "title": "The dynamic parametric bootstrap draws from the estimated model", "statement": "Wages drawn by the parametric bootstrap of the dynamic model follow the estimated model's joint density given the drawn worker types, with or without controls.", "quantifier": "every parameter value and list of controls, movers and stayers", "why_tests_cant": "A statement about the joint law of four random variables.", "anchors": [{"file": "pytwoway/blm_dynamic.py", "symbols": ["_simulate_types_wages", "DynamicBLMBootstrap.fit"]}]}
{"id": "C75", "title": "Dynamic worker-type posteriors and proportions", "statement": "In the dynamic model's estimation of movers and of stayers, each row's posterior over worker types is proportional to the current type proportion of the row's firm-type flow times the joint density of the row's four (two) wages, sums to one and is positive; the updated proportions of a flow are the averages of the posteriors over that flow's rows with the Dirichlet prior added, positive and summing to one; RuntimeError is raised exactly when some flow has no rows.", "quantifier": "every dataset without control variables, every parameter value with positive standard deviations, every prior", "why_tests_cant": "The claim is about all wages and parameter values.", "anchors": [{"file": "pytwoway/blm_dynamic.py", "symbols": ["DynamicBLMModel._fit_movers", "DynamicBLMModel.fit_stayers"]}]}
{"id": "C77", "title": "The dynamic EM never lowers the recorded likelihood", "statement": "The likelihoods recorded by fit_movers and fit_stayers of the dynamic model never fall from one iteration to the next, whichever of proportions, means, standard deviations and persistence are updated.", "quantifier": "every dataset, starting value, set of updated parameters and number of iterations", "why_tests_cant": "Monotonicity is along every execution; a falling likelihood needs particular data.", "anchors": [{"file": "pytwoway/blm_dynamic.py", "symbols": ["DynamicBLMModel._fit_movers", "DynamicBLMModel.fit_stayers"]}]}
{"id": "C78", "title": "The dynamic EM stops at the documented thresholds", "statement": "fit_movers stops at the first iteration whose likelihood is within threshold_movers of the previous one (the lowest firm type being unchanged), fit_stayers at the first within threshold_stayers, and both at the latest after the requested number of iterations.", "quantifier": "every dataset, starting value, threshold and number of iterations", "why_tests_cant": "The loop can stop at any iteration; every execution has to be covered.", "anchors": [{"file": "pytwoway/blm_dynamic.py", "symbols": ["DynamicBLMModel._fit_movers", "DynamicBLMModel.fit_stayers"]}]}
{"id": "C76", "title": "Switching endogeneity or state dependence off removes that effect", "statement": "With endogeneity=False (state_dependence=False) a DynamicBLMModel can be constructed with any controls and none of its wages in period 2 (3) depends on the future (past) firm type, neither through the base effects nor through the controls; all other starting values are as drawn.", "quantifier": "every drawn starting value, every set of controls, both options", "why_tests_cant": "Quantifies over all sets of controls and all random draws.", "anchors": [{"file": "pytwoway/blm_dynamic.py", "symbols": ["DynamicBLMModel.__init__"]}]}
{"id": "C79", "title": "The movers-per-firm line of the attrition plots is where the averages cross the full sample's value", "statement": "In the attrition plots the vertical line is drawn where the linear interpolation, across the plotted fractions, of the average number of movers per firm equals that of the full sample, or at the end of the axis when it never does; it is always on the axis, and plots can be drawn with or without it.", "quantifier": "every list of averages and every x-axis", "why_tests_cant": "Quantifies over all real sequences; the boundary cases are easy to miss.", "anchors": [{"file": "pytwoway/attrition.py", "symbols": ["Attrition._combine_res", "Attrition.plots"]}]}
{"id": "C80", "title": "Decreasing attrition samples are nested and of the requested sizes", "statement": "AttritionDecreasing yields one sample per requested fraction; every sample is contained in the previous one, and its number of movers differs from the requested fraction of the movers only by accumulated rounding.", "quantifier": "every dataset, every decreasing list of fractions, every random order", "why_tests_cant": "Quantifies over random draws and all lists of fractions.", "anchors": [{"file": "pytwoway/attrition_utils/attrition_utils.py", "symbols": ["AttritionDecreasing"]}]}
{"id": "C81", "title": "The Monte Carlo histograms show every estimation error", "statement": "Every difference between an estimate and the truth, for all plotted estimators and simulations, lies inside the range over which MonteCarlo.hist draws its histogram, whatever the signs of the differences.", "quantifier": "every set of simulated estimates", "why_tests_cant": "Quantifies over all reals and their signs.", "anchors": [{"file": "pytwoway/montecarlo.py", "symbols": ["MonteCarlo.hist"]}]}
{"id": "C82", "title": "Simulated Borovickova-Shimer wages have the requested moments", "statement": "In data from SimBS the wage has standard deviation sigma_wages, the worker and firm types of a match have the requested variances and correlation, the expected wage given the worker's (firm's) type is that type, all wages are finite, and the columns lambda_i and mu_j are the types.", "quantifier": "every documented parameter value", "why_tests_cant": "A statement about distributions for every parameter value, including the border.", "anchors": [{"file": "pytwoway/simbs.py", "symbols": ["SimBS.simulate", "SimBS.__init__"]}]}
{"id": "C83", "title": "Incomplete Cholesky approximates the matrix within its thresholds", "statement": "ichol of a sparse matrix with sorted columns and stored diagonal entries returns a lower triangular L whose product L L' differs from the matrix, below the diagonal, by at most discard_threshold times the column's diagonal entry of L or relative_discard_threshold times the column's absolute sum; with both thresholds zero L L' is the matrix plus the shift and applying the returned operator solves the system; on connected data with positive weights ichol of the two-way estimator's matrix never fails.", "quantifier": "every sparse matrix in canonical form, all thresholds, shifts and both values of diag_keep_discarded", "why_tests_cant": "The linked-list algorithm must be right for every sparsity pattern.", "anchors": [{"file": "pytwoway/preconditioners/ichol.py", "symbols": ["_ichol", "ichol", "CholeskyDecomposition"]}]}
{"id": "C84", "title": "An estimator can be fitted again", "statement": "Calling fit on an FE or FE-control estimator that has been fitted before, or on which earlier calls failed at any point, ends as it would on a new estimator with the same options and data, goes through the same estimation steps and stores the same results; a successful call leaves no working matrices behind.", "quantifier": "all options, all sequences of earlier calls with any outcomes, all data", "why_tests_cant": "Attributes are created and deleted along each path; a path that reads or deletes what another path left or removed fails only for particular sequences of outcomes.", "anchors": [{"file": "pytwoway/fe.py", "symbols": ["FEEstimator.fit", "FEEstimator._save_res"]}, {"file": "pytwoway/fecontrol.py", "symbols": ["FEControlEstimator.fit"]}]}
{"id": "C85", "title": "Homoskedastic correction with controls is unbiased", "statement": "With control variables, positive weights and linearly independent covariates: when error variances are inversely proportional to the weights and there are more observations than coefficients, the corrected residual variance is unbiased, and the homoskedastic-corrected variance of any sum of covariates and covariance of any two sums (firm, worker, categorical and continuous controls) equals the true one on average over the errors and over the random probes, for any number of probes; the approximate traces (Hutchinson, hutch++) average to the exact trace. A component naming something that is not a covariate is refused.", "quantifier": "all datasets with any categorical and continuous controls, all weights, true effects, error distributions, lists of covariates and numbers of probes", "why_tests_cant": "Unbiasedness is a statement about expectations; a test sees single draws, and an error in one block of the trace shows up only for some combinations of controls and weights.", "anchors": [{"file": "pytwoway/fecontrol.py", "symbols": ["FEControlEstimator._estimate_sigma_2_ho", "FEControlEstimator._estimate_exact_trace_sigma_2", "FEControlEstimator._estimate_approximate_trace_sigma_2", "FEControlEstimator._estimate_approximate_trace_ho", "FEControlEstimator._collect_res"]}, {"file": "pytwoway/Q/Q.py", "symbols": ["VarCovariate", "CovCovariate"]}]}
{"id": "C86", "title": "Heteroskedastic correction with controls", "statement": "With control variables: approximate leverages average to the leverages (the change of a row's fitted value per unit change of its outcome) and normalised ones lie in [0, 1]; precomputed leverages from several files are averaged; the variance estimate of a row is the leave-one-out prediction error times the deviation from the mean and equals the row's error variance on average; stayers get an unbiased value or an upper bound; the heteroskedastic-corrected component of any lists of covariates is unbiased.", "quantifier": "all datasets with any controls, weights, error variances, lists of covariates, both treatments of stayers, any number of probes", "why_tests_cant": "The claims are about expectations over errors and probes and about leaving out every single row in turn.", "anchors": [{"file": "pytwoway/fecontrol.py", "symbols": ["FEControlEstimator._estimate_Sii_he", "FEControlEstimator._estimate_approximate_trace_he", "FEControlEstimator._estimate_approximate_leverages", "FEControlEstimator._leverage_approx", "FEControlEstimator._extract_precomputed_leverages", "FEControlEstimator._collect_res"]}]}
{"id": "C87", "title": "Effects of control variables are least-squares updates from current values", "statement": "When a BLM estimator is fitted with control variables, one EM iteration that updates effects first replaces the firm-type effects by the best weighted least-squares fit within their constraints given the control effects, then, column by column, each control's effects by the best fit within that column's constraints given everything updated so far (weights: row weight times posterior over that block's own current variance). Controls interacted with worker type get the weighted mean residual of the category (slopes: the regression slope), pooled ones the mean pooled over worker types; the cached outcome and cached effect sums used from one iteration to the next always equal what would be recomputed from current parameters.", "quantifier": "all data, weights, posteriors, lists of controls in any order (categorical or continuous, interacted or not), constraints, numbers of iterations", "why_tests_cant": "Stale caches and wrong residuals show only for particular combinations of columns and iterations, and optimality is a claim about all alternatives.", "anchors": [{"file": "pytwoway/blm.py", "symbols": ["BLMModel._fit_movers", "BLMModel._sum_by_non_nl", "BLMModel._sum_by_nl_l"]}, {"file": "pytwoway/constraints.py", "symbols": ["QPConstrained.solve"]}]}
{"id": "C88", "title": "With controls EM raises the likelihood and variances fit the residuals", "statement": "With control variables, an EM iteration never lowers the likelihood it maximises, and after the variance update the total variance given to wages matches the posterior-weighted squared residuals.", "quantifier": "all data, weights, controls and starting values, any exact constrained least-squares solver", "why_tests_cant": "A drop needs particular starting values, and the fitted variance is compared with the residual variance only when someone recomputes it.", "anchors": [{"file": "pytwoway/blm.py", "symbols": ["BLMModel._fit_movers"]}]}
{"id": "C89", "title": "Covariance between consecutive firm effects", "statement": "On data sorted by worker, the component cov(psi_t, psi_{t+1}) of an FE estimation is the (weighted) covariance between the firm effect of an observation and that of the same worker's next observation, over all pairs of consecutive observations, whichever firm is normalised to zero; its homoskedastic correction, with exact or approximated trace, is unbiased, and so is the heteroskedastic one.", "quantifier": "all sorted panels with at least one worker observed twice, all weights, true effects and error distributions, any number of probes", "why_tests_cant": "The left and right half are built from different rows and must stay aligned for every pattern of spell lengths; unbiasedness is a claim about expectations.", "anchors": [{"file": "pytwoway/Q/Q.py", "symbols": ["CovPsiPrevPsiNext"]}, {"file": "pytwoway/fe.py", "symbols": ["FEEstimator._estimate_exact_trace_ho", "FEEstimator._estimate_approximate_trace_ho", "FEEstimator._estimate_approximate_trace_he"]}]}
{"id": "C90", "title": "Sorting the dynamic model's types only renames them", "statement": "Sorting the parameters of a dynamic BLM model renames worker types (and firm types if asked) by one permutation each across all parameters of all periods, so no observation's likelihood changes; afterwards mean effects in the primary period are in order (reversed if asked).", "quantifier": "all parameter values, control variables, primary periods and sort options", "why_tests_cant": "Every array has to be permuted along the right axis, for every permutation and every period.", "anchors": [{"file": "pytwoway/blm_dynamic.py", "symbols": ["DynamicBLMModel._sort_parameters"]}]}
{"id": "C91", "title": "Constraints imposed when estimating the dynamic model", "statement": "Estimating a dynamic BLM model imposes on the movers' and stayers' base means and standard deviations exactly: the user's constraints, the lower bound on standard deviations, parameters of the extra move-related ('b') periods equal for all worker types, and, with constrained categorical controls, increasing worker-type means in the primary period and a normalisation; on a control's parameters equality over worker types unless it interacts with worker type (and always in the 'b' periods). A user's constraint can be used for the whole estimation.", "quantifier": "all numbers of worker and firm types, all sets of controls, all switches (endogeneity, state dependence, primary period, normalisation), all parameter vectors", "why_tests_cant": "The claim is about the feasible set, for all dimensions; a test sees only single estimates.", "anchors": [{"file": "pytwoway/blm_dynamic.py", "symbols": ["DynamicBLMModel._gen_constraints", "DynamicBLMModel.__init__"]}, {"file": "pytwoway/constraints/constraints.py", "symbols": ["QPConstrained", "NoWorkerTypeInteraction", "BoundedBelow", "MonotonicMean", "NormalizeAll", "NormalizeLowest"]}]}
{"id": "C92", "title": "The command line passes on exactly what was given", "statement": "Running the command-line tool with --fe and/or --cre runs exactly these estimators with each parameter equal to the option given, or its documented default if the option is not given; every documented option is usable.", "quantifier": "all combinations of options and texts, all data files, all behaviours of reading, cleaning and clustering", "why_tests_cant": "There are exponentially many combinations of options, and text arguments are unbounded.", "anchors": [{"file": "pytwoway/command_line.py", "symbols": ["main", "clear_dict", "str2bool"]}, {"file": "pytwoway/fe.py", "symbols": ["fe_params"]}, {"file": "pytwoway/cre.py", "symbols": ["cre_params"]}]}
{"id": "C93", "title": "The basic statistics of the data are the documented moments", "statement": "The statistics FEEstimator.fit reports before estimating are what they are called: var(y) is the weighted variance of wages and equals between_firm_var plus the weighted variance within firms; between_firm_var never exceeds what worker and firm effects explain, which never exceeds var(y); n_movers and n_stayers partition the workers; the quantile vectors have eleven nondecreasing entries within the range of the firms' totals.", "quantifier": "all panels with positive weights (or unweighted), all solvers that solve solvable systems, all sorting routines", "why_tests_cant": "A run compares numbers for one panel; the inequalities and identities must hold for every panel, weighting and tie.", "anchors": [{"file": "pytwoway/fe.py", "symbols": ["FEEstimator._prep_vars", "FEEstimator._compute_early_stats"]}, {"file": "pytwoway/fecontrol.py", "symbols": ["FEControlEstimator._compute_early_stats"]}, {"file": "pytwoway/util.py", "symbols": ["weighted_var", "weighted_quantile"]}]}
{"id": "C94", "title": "Event-study plots show each transition's average wages", "statement": "plot_extendedeventstudy draws, for every pair of firm types, the average wage and its standard error in each period before and after the move of exactly the workers who made that transition, with their number in the title; every worker is in exactly one subplot; data that is not clustered is drawn in a single plot.", "quantifier": "all extended event study data, all window lengths before and after the move, all numbers of firm types", "why_tests_cant": "Plots are not checked by tests at all, and the claim ranges over all windows, numbers of types and data sets.", "anchors": [{"file": "pytwoway/diagnostics/plot_extendedeventstudy.py", "symbols": ["plot_extendedeventstudy"]}]}
{"id": "C95", "title": "Controls in the dynamic model's EM algorithm", "statement": "Every categorical control documented for the dynamic model can be used in the estimation, with any number of categories and with or without interaction with worker types. In each update the effects of firm types and of each control are the constrained weighted least squares estimates given the current effects of the others, the residuals of every iteration are net of the current effects of all controls, and the variances of the parts add up to the residual variance.", "quantifier": "all data of movers and stayers, posteriors, parameters, numbers of worker types, firm types and categories, all lists of controls, all constraint sets and solvers, all numbers of iterations", "why_tests_cant": "Tests fit one or two small simulated data sets; the claim ranges over all lists of controls and all sizes, and the running sum of effects must be right after every one of arbitrarily many updates.", "anchors": [{"file": "pytwoway/blm_dynamic.py", "symbols": ["DynamicBLMModel._fit_movers"]}, {"file": "pytwoway/blm_dynamic.py", "symbols": ["DynamicBLMModel.fit_stayers"]}, {"file": "pytwoway/blm_dynamic.py", "symbols": ["DynamicBLMModel._sum_by_non_nl"]}]}
{"id": "C96", "title": "Cycles of the lowest firm type, and forcing it", "statement": "With categorical controls, if from iteration start_cycle_check_threshold on the lowest firm type changes in each of cycle_check_n_obs consecutive iterations, the estimation of movers is restarted from the initial guesses with force_min_firm_type, and in no other case; the setting is afterwards what it was. With force_min_firm_type every firm type in turn is constrained to be the lowest, always from the same initial guesses, and what is stored is the fit with the highest likelihood. This holds for the static and the dynamic model.", "quantifier": "all data, parameters and initial guesses, all numbers of worker and firm types, all settings of the check, all sequences of lowest firm types and all numbers of iterations, all likelihoods including ties, all fits that raise", "why_tests_cant": "A cycle depends on the whole history of the iterations, of any length; tests never get into one, and never see a fit that fails among the forced ones.", "anchors": [{"file": "pytwoway/blm.py", "symbols": ["BLMModel.fit_movers"]}, {"file": "pytwoway/blm.py", "symbols": ["BLMModel._fit_movers"]}, {"file": "pytwoway/blm.py", "symbols": ["BLMModel._min_firm_type"]}, {"file": "pytwoway/blm_dynamic.py", "symbols": ["DynamicBLMModel.fit_movers"]}, {"file": "pytwoway/blm_dynamic.py", "symbols": ["DynamicBLMModel._fit_movers"]}]}
{"id": "C97", "title": "Dynamic model: wrappers give back what they borrow", "statement": "After a bootstrap or a variance decomposition of the dynamic model the movers' and stayers' data are what they were. fit_A, fit_S and fit_pk change only means, standard deviations or type proportions (up to the order of worker types) and leave the settings; fit_movers_cstr_uncstr leaves the settings, runs its fits in the documented order, and starts from the static model if one is given. The variance decomposition regresses on firm types if firm_clusters_as_ids is set.", "quantifier": "all data, all numbers of samples, all simulated wages and clusters, all points at which a step may raise, all models, settings and constraints, all numbers of types and iterations", "why_tests_cant": "Data and settings are restored by statements after the work; every crash point inside, and every column, matters. Tests look at the returned estimates, not at the frames passed in.", "anchors": [{"file": "pytwoway/blm_dynamic.py", "symbols": ["DynamicBLMModel.fit_movers_cstr_uncstr"]}, {"file": "pytwoway/blm_dynamic.py", "symbols": ["DynamicBLMModel.fit_A"]}, {"file": "pytwoway/blm_dynamic.py", "symbols": ["DynamicBLMModel.fit_S"]}, {"file": "pytwoway/blm_dynamic.py", "symbols": ["DynamicBLMModel.fit_pk"]}, {"file": "pytwoway/blm_dynamic.py", "symbols": ["DynamicBLMBootstrap.fit"]}, {"file": "pytwoway/blm_dynamic.py", "symbols": ["DynamicBLMVarianceDecomposition.fit"]}]}
{"id": "C98", "title": "Estimation with several starting values does not depend on the schedule, and stores and plots exactly its runs", "statement": "BLMEstimator.fit and DynamicBLMEstimator.fit return or raise, store and use up the same with one process and with any number of processes, whichever process takes which run and in whatever order runs end; no two runs share a seed, in one call or in several with the same generator; when fit gets through, the model stored is the best connected of the n_best most likely runs, liks_high, liks_low and the connectedness arrays hold exactly the runs' values, plot_liks_connectedness draws every run once, and more starting values never lower the likelihood of the model kept; when fit fails, what is stored still belongs together.", "quantifier": "every number of starting values and processes, every schedule, every list of run results including runs without connectedness and runs or stayer fits that raise, every earlier state of the estimator and of the generator", "why_tests_cant": "It quantifies over schedules of a process pool, histories of calls and all failures of inner fits; tests see a few seeds in one process.", "anchors": [{"file": "pytwoway/blm.py", "symbols": ["BLMEstimator.fit"]}, {"file": "pytwoway/blm.py", "symbols": ["BLMEstimator.plot_liks_connectedness"]}, {"file": "pytwoway/blm_dynamic.py", "symbols": ["DynamicBLMEstimator.fit"]}, {"file": "pytwoway/blm_dynamic.py", "symbols": ["DynamicBLMEstimator._fit_model"]}, {"file": "pytwoway/util.py", "symbols": ["jitter_scatter"]}]}
{"id": "C99", "title": "Plots of estimated models show the estimated effects and the shares of worker types", "statement": "plot_log_earnings draws one line per worker type with the estimated mean log earnings of the chosen period at every firm class, types and classes ordered by their mean effects in the primary period; plot_type_proportions draws for every firm class bars that are nonnegative, stand on each other and reach one, and whose heights are the worker types' shares among the movers, the stayers or all workers who are at that class in the chosen period; the bootstrap classes draw the averages over their models with 2.5 and 97.5 percentiles; a plot is refused exactly when what it needs has not been estimated or an option is not one of the documented values. No plot changes a model.", "quantifier": "every static and dynamic model, every primary period, period and subset, all data with or without movers and stayers at some class, every number of bootstrapped models", "why_tests_cant": "Plots are looked at, not asserted on; a swapped index still gives plausible bars that add up to one. The claim ranges over all flows between classes and all numbers of models.", "anchors": [{"file": "pytwoway/blm.py", "symbols": ["BLMModel.plot_log_earnings"]}, {"file": "pytwoway/blm.py", "symbols": ["BLMModel.plot_type_proportions"]}, {"file": "pytwoway/blm.py", "symbols": ["BLMBootstrap.plot_log_earnings"]}, {"file": "pytwoway/blm.py", "symbols": ["BLMBootstrap.plot_type_proportions"]}, {"file": "pytwoway/blm_dynamic.py", "symbols": ["DynamicBLMModel.plot_log_earnings"]}, {"file": "pytwoway/blm_dynamic.py", "symbols": ["DynamicBLMModel.plot_type_proportions"]}, {"file": "pytwoway/blm_dynamic.py", "symbols": ["DynamicBLMBootstrap.plot_log_earnings"]}, {"file": "pytwoway/blm_dynamic.py", "symbols": ["DynamicBLMBootstrap.plot_type_proportions"]}]}
{"id": "C100", "title": "Interacted estimator: liml_2, hful, profiling and coarse instruments recover the effects", "statement": "For every linear method of the interacted estimator (linear, iv, liml_1, liml_2, hful, the last four with profiling or coarse instruments where the options allow): if the moments implied by some admissible, normalised firm effects have mean zero in every group of the instrument and no other such effects have that property, fit returns exactly those effects, with or without weights; liml_2 and hful return the effects that minimise their criterion over all admissible effects; and singular problems are refused with an exception instead of returning numbers.", "quantifier": "all data, numbers of movers and firms, weights, methods, option combinations, Fuller constants and every oracle returning correct eigenvectors", "why_tests_cant": "Whether an eigenvector solution is the minimiser of the criterion, and whether it recovers the true effects, is a statement about all data sets and all admissible alternatives; a test only sees noise around one answer.", "anchors": [{"file": "pytwoway/blm_interacted.py", "symbols": ["InteractedBLMEstimator._fit_a_b_linear"]}, {"file": "pytwoway/blm_interacted.py", "symbols": ["InteractedBLMEstimator.fit"]}]}
{"id": "C101", "title": "FE results: every requested quantity under its own name, summary, saving, counts and loaded leverages", "statement": "After fit of the FE estimators (with or without controls), for every list of requested variances and covariances: res holds each request's plug-in estimate, trace mean and standard deviation and corrected estimates under its documented name, each equal to plug-in minus the corresponding bias term; the residual variances and the counts of firms, workers, movers, stayers and categories are reported under their names and no other entry is changed; summary lists the outcome variance, the residual variances and all estimates, variances then covariances in alphabetical order, with the values of res; collecting never fails on what the earlier steps leave; saving writes every entry; precomputed leverages are accepted exactly when their average over the files is below one on every checked row.", "quantifier": "all lists of requests and column names, all estimates and trace draws, all option combinations, all contents of res before collecting, all sets of leverage files", "why_tests_cant": "Names are built from user-supplied column names and may collide with each other and with fixed keys; tests use psi and alpha only and cannot rule out a collision or a wrong overwrite for other names.", "anchors": [{"file": "pytwoway/fe.py", "symbols": ["FEEstimator._collect_res"]}, {"file": "pytwoway/fe.py", "symbols": ["FEEstimator._save_res"]}, {"file": "pytwoway/fecontrol.py", "symbols": ["FEControlEstimator._collect_res"]}, {"file": "pytwoway/fecontrol.py", "symbols": ["FEControlEstimator._prep_vars"]}, {"file": "pytwoway/fecontrol.py", "symbols": ["FEControlEstimator._construct_Q"]}, {"file": "pytwoway/fecontrol.py", "symbols": ["FEControlEstimator._extract_precomputed_leverages"]}, {"file": "pytwoway/Q/Q.py", "symbols": ["VarCovariate.name"]}, {"file": "pytwoway/Q/Q.py", "symbols": ["CovCovariate.name"]}]}
{"id": "C102", "title": "SorkinAttrition: one correlation per simulation and fraction, for any number of cores", "statement": "After SorkinAttrition.attrition every simulation and fraction has one stored number: the correlation, over the firms of the sample that the drawn subset leaves, between the firms' values and their estimated wage effects. It lies between -1 and 1, is nan exactly if one of the two does not vary, and does not depend on the units or the reference firm of the effects or on the number of cores. A call that raises leaves earlier results. The plot shows one point per fraction with the average over simulations, and refuses to run before there are results.", "quantifier": "all data, draws, values and effects, all numbers of simulations, fractions and cores, both directions of attrition", "why_tests_cant": "The number depends on random subsets and on two estimators; tests run it for one seed and look at no value.", "anchors": [{"file": "pytwoway/sorkin.py", "symbols": ["SorkinAttrition._attrition_interior"]}, {"file": "pytwoway/sorkin.py", "symbols": ["SorkinAttrition._attrition_single"]}, {"file": "pytwoway/sorkin.py", "symbols": ["SorkinAttrition.attrition"]}, {"file": "pytwoway/sorkin.py", "symbols": ["SorkinAttrition.plot"]}]}
{"id": "C103", "title": "Attrition: which parameters each estimation uses and what it reports", "statement": "For all parameter dictionaries given to Attrition, shared or not: the estimations use them with exactly the documented entries overridden (no heteroskedastic correction for the connected set, the correction for the leave-one-out set, sorted data, no copies, increasing fractions not connected again), and the caller's dictionaries do not change. Each estimation reports the FE, CRE and, if asked for, both Borovickova-Shimer results without loss, each under its own name; asking for more estimators does not change the results of the others.", "quantifier": "all parameter dictionaries and all ways in which they are shared, all data, generators and estimator results", "why_tests_cant": "Dictionaries are shared objects changed in several places; tests use fresh defaults and do not compare runs with different options.", "anchors": [{"file": "pytwoway/attrition.py", "symbols": ["Attrition.__init__"]}, {"file": "pytwoway/attrition.py", "symbols": ["Attrition._attrition_interior"]}, {"file": "pytwoway/attrition.py", "symbols": ["Attrition.attrition"]}, {"file": "pytwoway/sorkin.py", "symbols": ["SorkinAttrition.__init__"]}]}
{"id": "C104", "title": "One Monte Carlo simulation reports exactly the true moments and the entries of the estimators", "statement": "Every simulation of MonteCarlo reports the variance of the simulated firm effects and their covariance with the worker effects over all simulated observations, the plug-in, homoskedastic and heteroskedastic FE values, the total CRE values and, if asked for, the two Borovickova-Shimer values, each under the name that is stored later and nothing else. Asking for Borovickova-Shimer changes neither the other entries nor later simulations. If an estimator leaves out a value that is reported, a KeyError is raised.", "quantifier": "all simulated data, all generators, options and estimator results", "why_tests_cant": "The values of a simulation are random; tests compare averages of a few runs with tolerances.", "anchors": [{"file": "pytwoway/montecarlo.py", "symbols": ["MonteCarlo._monte_carlo_interior"]}]}
{"id": "C105", "title": "Attrition plots show exactly the estimators asked for, with averages over runs", "statement": "Attrition.plots and boxplots show, for firm effects and sorting and for the connected and the leave-one-out set, one curve (one sub-panel of boxes) for every estimator asked for and no other, Borovickova-Shimer only if estimated and FE-HE only for the leave-one-out set; curves are averages over runs of the estimated share of the variance of log wages, at the shares of movers kept; boxes contain the shares of all runs. The movers per firm compared with the full sample are averages over runs increased by five percent. Before attrition() has run both raise AttributeError.", "quantifier": "all stored results, fractions, options and combinations of estimators", "why_tests_cant": "There are 64 combinations of estimators in four panels; tests do not look at figures.", "anchors": [{"file": "pytwoway/attrition.py", "symbols": ["Attrition.plots"]}, {"file": "pytwoway/attrition.py", "symbols": ["Attrition.boxplots"]}, {"file": "pytwoway/attrition.py", "symbols": ["Attrition._combine_res"]}]}
{"id": "C106", "title": "CRE counts, the collapsed check, stored tables and the results dictionary", "statement": "CREEstimator.fit stores the numbers of firms, workers, clusters, movers and stayers; it raises ValueError whenever a stayer has several cross-section rows and never on collapsed data; the stored table for movers holds at (i, j) the average over movers from cluster i to cluster j and zero if there are none, the stored list for stayers the average of every cluster; the results contain every moment, every parameter, the counts, the terms between and within clusters and their totals under their own names, the posterior variance only if asked for, and the summary repeats five of them.", "quantifier": "all cross-section data with contiguous ids and all estimates", "why_tests_cant": "The check fires only on the shape of the data; names could overwrite each other; a table for clusters that do not all occur is indexed by position.", "anchors": [{"file": "pytwoway/cre.py", "symbols": ["CREEstimator.fit"]}, {"file": "pytwoway/cre.py", "symbols": ["CREEstimator.__prep_vars"]}, {"file": "pytwoway/cre.py", "symbols": ["CREEstimator.__estimate_between_cluster"]}, {"file": "pytwoway/cre.py", "symbols": ["CREEstimator.__collect_res"]}, {"file": "pytwoway/cre.py", "symbols": ["_pd_to_np"]}]}
{"id": "C107", "title": "Model constructors: checks and starting values", "statement": "BLMModel and DynamicBLMModel raise ValueError exactly when the number of firm types is missing, a name is used for a categorical and a continuous control, or a categorical control has no number of categories. Otherwise every effect (of firm types, of controls, in every period) starts from a draw with the parameters of that period and control and with the documented shape; standard deviations are within their range and not below the lower bound; proportions of movers are probability vectors, those of stayers are equal; nothing depends on the order in which controls were entered, and controls do not change the draws of the other parameters.", "quantifier": "all parameters, control dictionaries and generators", "why_tests_cant": "Order of entry, combinations of interactions and periods and generator states cannot be enumerated.", "anchors": [{"file": "pytwoway/blm.py", "symbols": ["BLMModel.__init__"]}, {"file": "pytwoway/blm_dynamic.py", "symbols": ["DynamicBLMModel.__init__"]}]}
{"id": "C108", "title": "Simulated BLM data: constructors, columns and controls", "statement": "SimBLM and SimDynamicBLM raise ValueError exactly when a name is used for a categorical and a continuous control. Simulated movers and stayers are those asked for (10 per cell by default), in order of firm types; worker types are drawn with the probabilities of the row's firm types; the data have exactly the documented columns; each wage is the effect of worker and firm type plus the effects of the categories and values shown in the control columns of that period plus shocks with the corresponding standard deviations; categories are in range; in the dynamic simulator a control has one value before and one after the move; data do not depend on the order in which controls were entered; wrong shapes of counts raise.", "quantifier": "all parameters, control dictionaries, effects and generators", "why_tests_cant": "Names, combinations of controls, orders of entry and generator states cannot be enumerated.", "anchors": [{"file": "pytwoway/simblm.py", "symbols": ["SimBLM.__init__"]}, {"file": "pytwoway/simblm.py", "symbols": ["SimBLM._simulate_movers"]}, {"file": "pytwoway/simblm.py", "symbols": ["SimBLM._simulate_stayers"]}, {"file": "pytwoway/simblm.py", "symbols": ["SimBLM.simulate"]}, {"file": "pytwoway/simdblm.py", "symbols": ["SimDynamicBLM.__init__"]}, {"file": "pytwoway/simdblm.py", "symbols": ["SimDynamicBLM._simulate_movers"]}, {"file": "pytwoway/simdblm.py", "symbols": ["SimDynamicBLM._simulate_stayers"]}]}
{"id": "C109", "title": "Choice and tolerance of the linear solver", "statement": "FE estimation calls the solver chosen by the user with the tolerance chosen by the user and the prepared preconditioner. Whatever the solver returns, each worker's weighted residuals sum to zero. A solver that stops at norm(residual) <= tol * norm(b), as documented, gives firm sums of residuals within tol of the total, a weighted sum of squares within tol^2 size / lam of the best, firm effects, worker effects and fitted values within tol sqrt(size) / lam (sqrt(size / lam)) of the best, where lam bounds the sum of squares from below; on connected data such a lam exists, so estimates and leverages converge to the exact ones as the tolerance goes to 0. Every tolerance of at least 0 can be chosen, and a solver that fails is noticed.", "quantifier": "all panels, weights, solvers, stopping behaviours, tolerances, preconditioners and option dictionaries", "why_tests_cant": "A test runs one solver on one panel; the bounds hold for every panel and every way of stopping, and failure of convergence depends on data no test has.", "anchors": [{"file": "pytwoway/fe.py", "symbols": ["FEEstimator._mult_AAinv"]}, {"file": "pytwoway/fe.py", "symbols": ["FEEstimator._compute_Pii"]}, {"file": "pytwoway/fe.py", "symbols": ["FEEstimator._estimate_ols"]}, {"file": "pytwoway/fe.py", "symbols": ["FEEstimator._prep_matrices"]}, {"file": "pytwoway/fe.py", "symbols": ["fe_params"]}]}
{"id": "C110", "title": "Solver tolerance with control variables", "statement": "FE estimation with control variables calls the solver chosen by the user with the tolerance chosen by the user. If the solver stops at norm(residual) <= tol * norm(b), as documented, the attached columns are those of normalised firm, worker and control effects; the squared moments of the residuals with all covariates are at most tol^2 times those of the outcomes; every effect is within tol sqrt(size) / lam of the best one, fitted values within tol sqrt(size / lam), and the weighted sum of squares within tol^2 size / lam of the smallest, where lam bounds how far fitted values move with effects. If all effects are identified such a lam exists, so that all estimates converge to the best ones as the tolerance goes to 0. The bound on the moments is attained for every panel: unlike without controls a worker's residuals need not sum to zero. A solver that reports failure is not noticed.", "quantifier": "all panels, weights, categorical and continuous controls, solvers, stopping behaviours and tolerances", "why_tests_cant": "A test runs one solver on one panel; the bounds hold for every panel, every set of controls and every way of stopping.", "anchors": [{"file": "pytwoway/fecontrol.py", "symbols": ["FEControlEstimator._mult_AAinv"]}, {"file": "pytwoway/fecontrol.py", "symbols": ["FEControlEstimator._solve"]}, {"file": "pytwoway/fecontrol.py", "symbols": ["FEControlEstimator._estimate_ols"]}, {"file": "pytwoway/fecontrol.py", "symbols": ["FEControlEstimator._attach_fe_estimates"]}, {"file": "pytwoway/fecontrol.py", "symbols": ["fecontrol_params"]}]}
{"id": "C111", "title": "Approximate leverages: refusal, spread and consistency", "statement": "The leverages estimated from random signs for the heteroskedastic correction, with or without controls, do not depend on the number of cores the probes are shared between. The step fails exactly if no leverage is needed or a needed row is fitted without residual in every probe, and says 'single stayer' exactly if a stayer has one observation (or weight one) and upper bounds were asked for. A needed leverage of one is refused whatever the probes; if there is none, the probability of refusal is at most the number of needed rows over 2^ndraw, and it can be positive for data that are in order. Returned leverages of needed rows lie in [0, 1), with the reported minimum and maximum. Their averages have mean-square error at most 2 lev^2 / ndraw, the probability that some returned leverage is off by eps is at most rows * 2 (1 + 2 eps)^2 / (ndraw eps^2), and as ndraw grows leverages and corrected error variances converge in probability to those with exact leverages.", "quantifier": "all panels, weights, controls, treatments of stayers, numbers of cores and probes, and all outcomes of the random signs", "why_tests_cant": "A test sees one seed; the bounds concern the distribution over all seeds and the limit of many probes.", "anchors": [{"file": "pytwoway/fe.py", "symbols": ["FEEstimator._estimate_approximate_leverages"]}, {"file": "pytwoway/fe.py", "symbols": ["FEEstimator._leverage_approx"]}, {"file": "pytwoway/fecontrol.py", "symbols": ["FEControlEstimator._estimate_approximate_leverages"]}, {"file": "pytwoway/fecontrol.py", "symbols": ["FEControlEstimator._leverage_approx"]}]}
{"id": "C112", "title": "With and without PyTorch", "statement": "Estimates do not depend on whether PyTorch is installed. For at least two worker types, fitting on movers, with or without control variables, gives the same parameters, likelihoods and errors on both installations; fitting on stayers does so for any number of worker types and with any controls. The densities used by the estimators are arrays of the normal log densities on both, for any number of observations. exp, log, square and logsumexp agree unless the first dimension has length one, where PyTorch's versions drop it; for this reason fitting the means or standard deviations of one worker type fails with an IndexError exactly when PyTorch is installed, return_qi then has one dimension, and logsumexp over all entries always fails with PyTorch.", "quantifier": "all data, starting values, numbers of types, options, controls and shapes", "why_tests_cant": "A test environment has PyTorch or has not; whether both give the same for every shape cannot be seen in either.", "anchors": [{"file": "pytwoway/util.py", "symbols": ["exp_"]}, {"file": "pytwoway/util.py", "symbols": ["log_"]}, {"file": "pytwoway/util.py", "symbols": ["square_"]}, {"file": "pytwoway/util.py", "symbols": ["logsumexp"]}, {"file": "pytwoway/util.py", "symbols": ["_to_numpy"]}, {"file": "pytwoway/util.py", "symbols": ["lognormpdf"]}, {"file": "pytwoway/util.py", "symbols": ["fast_lognormpdf"]}, {"file": "pytwoway/blm.py", "symbols": ["BLMModel._fit_movers"]}, {"file": "pytwoway/blm.py", "symbols": ["BLMModel.fit_stayers"]}]}
{"id": "C113", "title": "Labels, order of rows and units do not matter", "statement": "The fixed-effects estimator does not depend on how firms and workers are named, in which order observations are given, or in which units outcomes and weights are measured. After any renaming and reordering, with outcomes a*y+b and weights multiplied by c > 0: firm and worker effects are a times the earlier ones up to the constant that normalisation moves between them, residuals are a times, leverages are equal, and plug-in, homoskedastically corrected and heteroskedastically corrected var(psi), var(alpha) and cov(psi, alpha) are a^2 times the earlier ones. (The heteroskedastic correction does depend on the units of the weights: its trace is divided by c.)", "quantifier": "all valid connected panels with or without weights, all renamings of firms and workers, orders of rows, constants a, b and c > 0, solvers, and both options for stayers", "why_tests_cant": "The reference firm is the one whose identifier is 0, so a test on one labelling exercises one normalisation; invariance is about all permutations at once.", "anchors": [{"file": "pytwoway/fe.py", "symbols": ["FEEstimator.fit"]}, {"file": "pytwoway/fe.py", "symbols": ["FEEstimator._construct_AAinv_components_full"]}, {"file": "pytwoway/fe.py", "symbols": ["FEEstimator._estimate_exact_leverages"]}, {"file": "pytwoway/fe.py", "symbols": ["FEEstimator._estimate_Sii_he"]}, {"file": "pytwoway/fe.py", "symbols": ["FEEstimator._estimate_exact_trace_he"]}, {"file": "pytwoway/fe.py", "symbols": ["FEEstimator._compute_Pii"]}]}
{"id": "C114", "title": "BLM estimates do not depend on numbering, order, direction of time or units", "statement": "Fitting the static BLM model does not depend on how the data are written down. If movers are listed in another order, firm types are numbered differently, the worker types of the starting values are numbered differently, the two periods are exchanged and wages are measured as a*Y+b with a > 0 (with a lower bound on variances in the new unit), then every iteration and the final estimates are the earlier ones written down in the new way: mean wages a*A+b, standard deviations a*S, the same proportions of worker types for every pair of firm types, and every recorded likelihood lower by the same constant, so that the loop stops at the same iteration. The same holds for fit_stayers, unless a firm type without stayers has the highest number: then it raises. With control variables the same holds when the categories of categorical controls are renamed as well. It does not hold for the unit of a continuous control, because the variance attributed to it is a coefficient on the value of the control and not on its square, nor for the names of control columns, because columns are sorted by name and updated one after the other.", "quantifier": "all data with every firm type observed in both periods and positive weights, all renumberings, orders and units, all starting values, thresholds, iteration limits, update flags, Dirichlet priors >= 1 and convex constraints on mean wages", "why_tests_cant": "Pairs of firm types are flattened into one index, arrays are reshaped, and the length of bincount depends on the largest number used, so a mistake shows only under some numberings; invariance is about all permutations and units at once.", "anchors": [{"file": "pytwoway/blm.py", "symbols": ["BLMModel._fit_movers"]}, {"file": "pytwoway/blm.py", "symbols": ["BLMModel.fit_stayers"]}, {"file": "pytwoway/blm.py", "symbols": ["BLMModel._min_firm_type"]}, {"file": "pytwoway/constraints.py", "symbols": ["QPConstrained.solve"]}]}
{"id": "C115", "title": "Borovickova-Shimer estimates do not depend on names, order, sides or units", "statement": "The four Borovickova-Shimer estimators (standard or alternative, weighted or not) do not depend on how the panel is written down. Renaming workers and firms, reordering rows, measuring outcomes as a*y and weights as c*w with c > 0 gives the mean times a, both variances and the covariance times a squared, and for a different from 0 the same correlation. Adding a constant to every outcome moves the mean by it and changes nothing else. Exchanging workers and firms exchanges the two variances and changes nothing else.", "quantifier": "all panels, all renamings, orders and units; for the added constant, panels in which every worker and firm has two observations; for exchanged sides, positive weights; the order of rows includes orders that are not sorted by worker, for which the code fails", "why_tests_cant": "The claim is about all permutations and units at once; the estimators are built from group sums, leave-one-out means and pair products in four separate code paths.", "anchors": [{"file": "pytwoway/borovickovashimer.py", "symbols": ["BSEstimator.fit"]}]}
{"id": "C116", "title": "Collapsing a panel does not change the fixed effects", "statement": "If rows of the same worker at the same firm are collapsed into one row with their weighted mean outcome and their total weight (or k identical rows into one row of weight k), the fixed-effects estimator reports the same effect for every firm and worker and the same plug-in variances and covariance. The leverage of a collapsed row is shared among its rows in proportion to their weights, and the traces of the homoskedastic correction, exact or approximated with the same draws, are the same. (The estimates of the noise variance, and with them the corrected components, may differ.)", "quantifier": "all panels with positive weights or without weights, all ways of grouping rows of one worker at one firm, all connected sets of firms, all solvers, all draws", "why_tests_cant": "It relates the estimates of two panels of different lengths for every grouping of rows; a test compares one panel with one collapsed version.", "anchors": [{"file": "pytwoway/fe.py", "symbols": ["FEEstimator._prep_matrices"]}, {"file": "pytwoway/fe.py", "symbols": ["FEEstimator._estimate_ols"]}, {"file": "pytwoway/fe.py", "symbols": ["FEEstimator._estimate_fe"]}, {"file": "pytwoway/fe.py", "symbols": ["FEEstimator._compute_Pii"]}, {"file": "pytwoway/fe.py", "symbols": ["FEEstimator._estimate_exact_trace_ho"]}, {"file": "pytwoway/fe.py", "symbols": ["FEEstimator._estimate_approximate_trace_ho"]}]}
{"id": "C117", "title": "Names, order of rows and units in the CRE estimator", "statement": "CREEstimator does not depend on how firms and clusters are named (in particular on which cluster comes last and is normalised to zero), on the order of the rows, or on the units of outcomes: with outcomes a*y+b, cluster effects are a times the earlier ones up to a constant, and every reported parameter, variance and covariance (between, within and total) is a^2 times the earlier one, and so is the posterior variance when the draw of each firm follows the firm.", "quantifier": "all mover and stayer data whose moves connect the clusters, all renamings of firms and clusters, all orders of rows, all constants a and b, both values of wo_btw, all linear solvers and all draws", "why_tests_cant": "One cluster is singled out by its label; a test on one labelling exercises one normalisation, while invariance is about all permutations, orders and units at once.", "anchors": [{"file": "pytwoway/cre.py", "symbols": ["CREEstimator.fit"]}, {"file": "pytwoway/cre.py", "symbols": ["CREEstimator.__estimate_between_cluster"]}, {"file": "pytwoway/cre.py", "symbols": ["CREEstimator._estimate_within_cluster"]}, {"file": "pytwoway/cre.py", "symbols": ["CREEstimator.__estimate_within_parameters"]}, {"file": "pytwoway/cre.py", "symbols": ["CREEstimator.__collect_res"]}, {"file": "pytwoway/cre.py", "symbols": ["CREEstimator.__prior_in_diff"]}, {"file": "pytwoway/cre.py", "symbols": ["CREEstimator.__compute_posterior_var"]}]}
{"id": "C118", "title": "With no controls the estimator with controls is the FE estimator", "statement": "FEControlEstimator given neither categorical nor continuous controls returns what FEEstimator returns on the same data: the same attached firm and worker effects, residuals, plug-in variances and covariances of firm effects, worker effects and their sum, the same analytical trace and error variances, and, for the same random draws, the same approximate traces, approximate leverages, heteroskedastic error variances, refusals and corrected components.", "quantifier": "all connected panels with positive weights (weighted or not), all exact linear solvers of the two estimators, all requested variances and covariances of firm effects, worker effects and their sum, all draws and both treatments of stayers", "why_tests_cant": "The two estimators solve different systems (firm effects after eliminating workers, against all coefficients at once); agreement on examples does not show that the systems have the same solution on every connected panel.", "anchors": [{"file": "pytwoway/fecontrol.py", "symbols": ["FEControlEstimator._estimate_ols", "FEControlEstimator._estimate_fe", "FEControlEstimator._estimate_sigma_2_ho", "FEControlEstimator._estimate_approximate_trace_ho", "FEControlEstimator._estimate_approximate_trace_he", "FEControlEstimator._estimate_approximate_leverages", "FEControlEstimator._estimate_Sii_he"]}, {"file": "pytwoway/fe.py", "symbols": ["FEEstimator._estimate_ols", "FEEstimator._estimate_fe", "FEEstimator._estimate_sigma_2_ho", "FEEstimator._estimate_approximate_trace_ho", "FEEstimator._estimate_approximate_trace_he", "FEEstimator._estimate_approximate_leverages", "FEEstimator._estimate_Sii_he"]}, {"file": "pytwoway/Q/Q.py", "symbols": ["VarCovariate", "CovCovariate", "VarPsi", "VarAlpha", "VarPsiPlusAlpha", "CovPsiAlpha"]}]}
{"id": "C119", "title": "With controls: labels, order of rows, order of controls and units do not matter", "statement": "Renaming firms, workers, controls and the categories of a categorical control, shuffling the rows, listing controls in another order, adding a constant to a continuous control or measuring it in other units, adding a constant to outcomes or measuring them in other units (a times as large), and multiplying all weights by a constant change the answers of FEControlEstimator only in the evident way: the data stay identified; attached effects are a times the old ones plus one constant per covariate; the coefficient of a control measured in units r times smaller is a/r times the old one; residuals are a times the old ones; leverages are unchanged; plug-in and (in expectation over probes) corrected components are a squared times the old ones, under the new names. Standard errors should scale by |a/r|, whatever the names of firms and categories and the units of weights.", "quantifier": "all identified data sets with any number of categorical and continuous controls, all permutations of rows, firms, workers, control names and categories, all affine changes of units, all exact solvers, all lists of covariates asked for", "why_tests_cant": "The code drops the first firm and the first category of each control and numbers the columns by position; whether an answer depends on which label is first needs all relabellings of all data sets.", "anchors": [{"file": "pytwoway/fecontrol.py", "symbols": ["FEControlEstimator._prep_matrices", "FEControlEstimator._estimate_ols", "FEControlEstimator._unpack_gamma_hat", "FEControlEstimator._attach_fe_estimates", "FEControlEstimator._estimate_fe", "FEControlEstimator._estimate_sigma_2_ho", "FEControlEstimator._estimate_approximate_trace_ho", "FEControlEstimator._estimate_approximate_trace_he", "FEControlEstimator._leverage_approx", "FEControlEstimator._estimate_Sii_he"]}, {"file": "pytwoway/Q/Q.py", "symbols": ["VarCovariate", "CovCovariate"]}]}
{"id": "C120", "title": "A BLM fit that raises, or that is only asked for posterior probabilities, leaves the model as it was", "statement": "If fit_movers or fit_stayers of BLMModel or DynamicBLMModel raises an exception, at whatever point of the estimation, or is called with return_qi=True, then afterwards the model has the parameters, proportions, counts and likelihoods it had before: no half-done update is visible. The returned posterior probabilities belong to the model's worker types, column by column.", "quantifier": "all data sets, settings, numbers of iterations, behaviours of the solvers, controls, and points at which the estimation raises", "why_tests_cant": "An exception may come from any iteration, from the sorting, from a cycle or from the normalisation; tests look at models after successful fits.", "anchors": [{"file": "pytwoway/blm.py", "symbols": ["BLMModel.fit_movers", "BLMModel._fit_movers", "BLMModel.fit_stayers", "BLMModel._sort_parameters"]}, {"file": "pytwoway/blm_dynamic.py", "symbols": ["DynamicBLMModel.fit_movers", "DynamicBLMModel._fit_movers", "DynamicBLMModel.fit_stayers", "DynamicBLMModel._normalize", "DynamicBLMModel._sort_parameters"]}]}
{"id": "C121", "title": "Estimates of the dynamic model: order, numbering and units", "statement": "fit_movers and fit_stayers of DynamicBLMModel, without control variables, do not depend on the order in which workers are listed, on how firm types are numbered, or on how the worker types of the starting values are numbered: the whole run is renamed. If wages are multiplied by a > 0 (and starting means and standard deviations, bounds on them and d_X_diag - 1 are converted to the new unit), means and standard deviations are multiplied by a, persistence parameters and proportions stay the same, and every recorded likelihood falls by 4 log a. With the same d_X_diag in both units the estimates do differ, and adding a constant to wages does not add it to the estimated means, because d_X_diag shrinks means towards zero. The same holds for fit_movers with categorical controls, whose categories may be renumbered too, as long as the constraints say the same in both runs; the package's own constraints do if worker types keep their numbers, and do not if they are exchanged. For fit_stayers with a categorical control, renumbering the categories does change the estimated effects of the control.", "quantifier": "all data, starting values with positive standard deviations, options with d_X_diag > 1, convex constraints, right solvers, permutations of rows, firm types and worker types, units a > 0, and numbers of iterations", "why_tests_cant": "A test compares a few permutations on one data set; the claim is about every permutation and unit, through every iteration and error branch, including the case where a quadratic program has no solution.", "anchors": [{"file": "pytwoway/blm_dynamic.py", "symbols": ["DynamicBLMModel._fit_movers", "DynamicBLMModel.fit_stayers", "DynamicBLMModel._min_firm_type", "DynamicBLMModel._gen_constraints"]}]}
{"id": "C122", "title": "Sorkin values settle when the flows mix, and depend on the moves only", "statement": "If some number of moves leads from every firm to every firm, SorkinEstimator.fit returns values as close as one likes to the unique values that balance the flows, for every small enough threshold and every large enough max_iters; with a positive threshold the iteration ends by itself, more iterations change nothing, and the values balance the flows up to the threshold. Strongly connected flows with one row that keeps the firm mix. Rows that keep the firm do not change the balancing values. The order of rows and observing every move several times do not change the result; renaming firms renames the values.", "quantifier": "every list of moves, every number of firms, every threshold, number of iterations and renaming", "why_tests_cant": "Convergence of an iteration for every network of flows; a test sees one network and one number of iterations (on a two-way street the iteration never settles, C30).", "anchors": [{"file": "pytwoway/sorkin.py", "symbols": ["SorkinEstimator.fit"]}]}
{"id": "C123", "title": "Interacted estimates do not depend on order, firm numbers or units; the normalised firm", "statement": "In the interacted BLM estimator with method liml_1, iv or linear and exact instruments, rows in another order, firms under other numbers (norm_fid renumbered with them), workers under other numbers, wages multiplied by a nonzero factor or counted from another origin give the same slopes, and intercepts in the new unit and from the new origin, up to the one shift of all worker effects that makes the intercept of the new firm 0 zero in period one. (Another origin is excluded for stationary_a without stationary_b.) With liml_1 another norm_fid divides every slope by the slope of that firm and changes nothing else; with iv it changes the relative slopes.", "quantifier": "every data set, permutation of rows and firms, unit, origin, combination of stationary options, regulariser and instrument kind; for liml_1, whenever the smallest eigenvalue has one direction", "why_tests_cant": "An invariance over all data sets and relabellings; a test sees one data set, and the first firm is treated differently from the others in the code.", "anchors": [{"file": "pytwoway/blm_interacted.py", "symbols": ["InteractedBLMModel._fit_a_b_linear"]}]}
{"id": "C124", "title": "One worker type gives statistics by firm type; worker types that start alike stay alike", "statement": "With nl=1, no constraints and no PyTorch installed, BLMModel.fit_movers returns, from any starting values and for any positive number of iterations, the weighted means and standard deviations of wages by firm type and period (variances not below the bound), proportions of one, and with a positive threshold it ends by itself within three iterations; fit_stayers returns proportions of one for every observed firm type. With several worker types, two types with equal starting means, standard deviations and proportions have equal values after any number of iterations, unless a constraint names one of them.", "quantifier": "every data set in which all firm types (and pairs, if proportions are updated) occur, every positive weights, starting values, number of iterations and prior", "why_tests_cant": "A statement about every start and every number of iterations; a test runs one start.", "anchors": [{"file": "pytwoway/blm.py", "symbols": ["BLMModel.fit_movers"]}, {"file": "pytwoway/blm.py", "symbols": ["BLMModel.fit_stayers"]}]}
{"id": "C125", "title": "A leverage of one means that the data are not leave-one-observation-out connected", "statement": "On connected data, FEEstimator with exact leverages (params exact_lev_he=True) raises the leave-one-observation-out error of the heteroskedastic correction exactly when some observation whose leverage is used (all of them without weights and with Sii_stayers='upper_bound', else those of movers) is the only tie between two parts of the network of workers and firms; otherwise it stores the leverages and their range, all below one, and each variance estimate uses the only possible prediction from the other observations. With approximate leverages such an observation makes the correction fail whatever the random draws. FEControlEstimator raises the same error for the same reason.", "quantifier": "every connected panel, every observation in it, every positive weights, both treatments of stayers, every sequence of probes", "why_tests_cant": "A statement about graphs of every size and shape, and about every removal of an observation from them.", "anchors": [{"file": "pytwoway/fe.py", "symbols": ["FEEstimator._estimate_exact_leverages"]}, {"file": "pytwoway/fe.py", "symbols": ["FEEstimator._compute_Pii"]}, {"file": "pytwoway/fe.py", "symbols": ["FEEstimator._estimate_approximate_leverages"]}, {"file": "pytwoway/fecontrol.py", "symbols": ["FEControlEstimator._estimate_approximate_leverages"]}]}
{"id": "C126", "title": "Firm effects are identified by movers: workers who never move can be dropped", "statement": "Dropping from the data passed to FEEstimator all observations of any workers who are seen at one firm only leaves the estimated effect of every firm, the estimated effect of every other worker, and the residual and leverage of every remaining observation as they were; the effect of a worker who never moves is their weighted mean outcome less the effect of their firm.", "quantifier": "every connected panel, every set of workers seen at one firm only, every positive weights, every numbering of the remaining workers and order of the remaining rows", "why_tests_cant": "A statement about pairs of data sets of every size; a test compares one pair.", "anchors": [{"file": "pytwoway/fe.py", "symbols": ["FEEstimator._estimate_ols"]}, {"file": "pytwoway/fe.py", "symbols": ["FEEstimator._solve"]}, {"file": "pytwoway/fe.py", "symbols": ["FEEstimator._compute_Pii"]}]}
{"id": "C127", "title": "FE estimates are linear in outcomes, and controls can be taken out first", "statement": "Effects added to the outcomes show up one for one in the estimates: adding worker and firm effects moves the attached psi_hat and alpha_hat of FEEstimator by exactly these (relative to the first firm) and leaves residuals and error variances as they were; adding effects of controls does the same to the coefficients of FEControlEstimator. Estimates for a weighted sum of two outcomes are that sum of the estimates. The psi_hat and alpha_hat attached by FEControlEstimator are those FEEstimator attaches for the outcome less the attached columns of the controls.", "quantifier": "every connected panel with identified controls of any number and kind, all outcomes, effects, coefficients and positive weights", "why_tests_cant": "A statement about all outcomes and all added effects on data of every size; tests compare single runs, and never two estimators.", "anchors": [{"file": "pytwoway/fe.py", "symbols": ["FEEstimator._estimate_ols"]}, {"file": "pytwoway/fe.py", "symbols": ["FEEstimator._solve"]}, {"file": "pytwoway/fecontrol.py", "symbols": ["FEControlEstimator._estimate_ols"]}, {"file": "pytwoway/fecontrol.py", "symbols": ["FEControlEstimator._unpack_gamma_hat"]}]}
{"id": "C128", "title": "On data whose firms are not connected, everything within a connected part is still determined", "statement": "FEEstimator can be run on data whose firms are not connected, where the effects have many least-squares solutions. Whichever of them the solver returns, fitted values, residuals, the error variance and the differences between effects of firms connected by movers are the same, and are those obtained by estimating on the connected part alone. Differences between firms not connected by movers, and so the variance of firm effects, are not determined by the data.", "quantifier": "every panel, connected or not, every positive weights, every solution the solver can return, every connected part under every order and numbering", "why_tests_cant": "A statement about every solution a solver could return, and about pairs of data sets of every size; a test sees the one returned.", "anchors": [{"file": "pytwoway/fe.py", "symbols": ["FEEstimator._estimate_ols"]}, {"file": "pytwoway/fe.py", "symbols": ["FEEstimator._solve"]}, {"file": "pytwoway/fe.py", "symbols": ["FEEstimator._prep_matrices"]}]}
{"id": "C129", "title": "Which way the bias corrections go, and how corrected components add up", "statement": "With exact traces the homoskedastic correction of FEEstimator never raises the variance of firm effects or of worker effects and never lowers their covariance, and it strictly lowers the variance of firm effects when there are two firms or more and some residual is not zero; with approximate traces the corrections have these signs on average over the random probes. With approximate traces, homoskedastic or heteroskedastic, the corrected var(psi + alpha) is the sum of the corrected var(psi), var(alpha) and twice cov(psi, alpha), up to a difference of two approximations of one trace that averages to zero over the probes but not in each run.", "quantifier": "every connected panel with some leverage below one, every outcomes and positive weights, every number of draws and every draw", "why_tests_cant": "Signs for every data set and every draw; a test sees a few.", "anchors": [{"file": "pytwoway/fe.py", "symbols": ["FEEstimator._estimate_exact_trace_ho"]}, {"file": "pytwoway/fe.py", "symbols": ["FEEstimator._estimate_approximate_trace_ho"]}, {"file": "pytwoway/fe.py", "symbols": ["FEEstimator._estimate_approximate_trace_he"]}, {"file": "pytwoway/fe.py", "symbols": ["FEEstimator._collect_res"]}]}
{"id": "C130", "title": "Repeating every observation leaves BLM estimates unchanged, but a weight is not a count", "statement": "If every mover is written down the same number of times, in any order, BLMModel.fit_movers returns the same parameters, type proportions, coefficients of controls and path of likelihoods, or raises the same error; likewise fit_stayers. A mover with weight two is not the same as two movers with weight one, and multiplying all weights by the same number changes the estimates.", "quantifier": "every data set, number of repetitions and order, starting values, prior, threshold, number of iterations, update flags, constraints, control columns", "why_tests_cant": "Equality of two whole runs for every data set and every number of iterations.", "anchors": [{"file": "pytwoway/blm.py", "symbols": ["BLMModel._fit_movers"]}, {"file": "pytwoway/blm.py", "symbols": ["BLMModel.fit_stayers"]}, {"file": "pytwoway/blm.py", "symbols": ["BLMModel._fit_movers"]}]}
{"id": "C131", "title": "Repeating every observation in the dynamic BLM model: only the ridge notices", "statement": "If every mover (stayer) is written down the same number c of times, in any order, and the number added to the diagonals of the regressions, d_X_diag_movers - 1 (d_X_diag_stayers - 1), is multiplied by c, DynamicBLMModel.fit_movers (fit_stayers) without controls returns the same means, standard deviations, persistence parameters, proportions and path of likelihoods, or raises the same error. With the same d_X_diag the estimates change.", "quantifier": "every data set, number of repetitions and order, starting values, prior, threshold, number of iterations, update flags, convex constraints, endogeneity and state dependence on or off", "why_tests_cant": "Equality of two whole runs for every data set and every number of iterations.", "anchors": [{"file": "pytwoway/blm_dynamic.py", "symbols": ["DynamicBLMModel._fit_movers"]}, {"file": "pytwoway/blm_dynamic.py", "symbols": ["DynamicBLMModel.fit_stayers"]}]}
{"id": "C132", "title": "Worker types of the dynamic BLM model that start alike stay alike", "statement": "In the dynamic BLM model without controls, two worker types with equal starting means, standard deviations and proportions have equal means, standard deviations and proportions after any number of iterations of fit_movers or fit_stayers, unless a constraint names one of them (as monotonicity does).", "quantifier": "every data set, number of worker and firm types, pair of types, update flags, prior, threshold, number of iterations, convex constraints that do not tell the two types apart", "why_tests_cant": "Holds for every data set and every number of iterations; follows from a symmetry of the whole algorithm.", "anchors": [{"file": "pytwoway/blm_dynamic.py", "symbols": ["DynamicBLMModel._fit_movers"]}, {"file": "pytwoway/blm_dynamic.py", "symbols": ["DynamicBLMModel.fit_stayers"]}]}
{"id": "C133", "title": "The BLM fits end by themselves", "statement": "With a positive threshold, no Dirichlet prior and (for movers) no controls, fit_movers and fit_stayers record at most 2 + (top - start) / threshold likelihoods, where start is the average log likelihood at the starting values and top the highest average log likelihood compatible with the lower bound on the variances. Once n_iters exceeds that number, the fit ends because the likelihood has settled, and raising n_iters returns the same parameters and the same path. With a threshold of zero or less the fits never end before n_iters.", "quantifier": "every data set with the highest (movers) or every (stayers) firm type observed, positive weights (equal for stayers, with constant product for movers whose proportions are updated), every positive threshold, number of iterations, starting values with variances at or above the bound and positive proportions, every constraint set on the means over which the lowest firm type is settled, any controls for stayers", "why_tests_cant": "Termination is a claim about every data set and an unbounded number of iterations; a test only sees runs that ended.", "anchors": [{"file": "pytwoway/blm.py", "symbols": ["BLMModel._fit_movers"]}, {"file": "pytwoway/blm.py", "symbols": ["BLMModel.fit_stayers"]}]}
{"id": "C134", "title": "BLM fits stay put exactly at critical points of the likelihood", "statement": "If one more iteration of fit_movers (everything updated, no prior, no controls) changes nothing, then in no admissible direction does the likelihood of the mixture model rise to first order: towards other admissible means, with standard deviations leaving their bound upwards and proportions keeping their sums. Without constraints and away from the bound the gradient is zero, and conversely at a zero gradient the iteration changes nothing. For fit_stayers, proportions left unchanged maximise the likelihood over all proportions; and if the next iteration raises no proportion by more than a fraction eps of itself, the likelihood is within eps of its maximum.", "quantifier": "every data set (every pair of firm types observed for movers, every firm type for stayers), positive weights with constant product (movers) or equal (stayers), every convex constraint set on the means, every admissible direction, every alternative set of proportions, any controls for stayers", "why_tests_cant": "A claim about derivatives in all directions and about all alternative proportions; no finite set of runs shows it.", "anchors": [{"file": "pytwoway/blm.py", "symbols": ["BLMModel._fit_movers"]}, {"file": "pytwoway/blm.py", "symbols": ["BLMModel.fit_stayers"]}]}
{"id": "C135", "title": "fit_stayers approaches the highest likelihood at a known rate", "statement": "With no Dirichlet prior, equal weights, every firm type observed and starting proportions of at least exp(-K), the proportions returned by fit_stayers after recording n + 1 likelihoods have an average log likelihood within K / n of that of any other proportions, whatever the wage parameters and controls. From even proportions and with a threshold of zero, n + 1 iterations come within log(nl) / n of the supremum.", "quantifier": "every data set with all firm types observed, numbers of types, wage parameters, controls, positive starting proportions, threshold, number of iterations and alternative proportions", "why_tests_cant": "A bound against every alternative set of proportions and for every number of iterations.", "anchors": [{"file": "pytwoway/blm.py", "symbols": ["BLMModel.fit_stayers"]}]}
{"id": "C136", "title": "With the Dirichlet prior a penalised likelihood never falls", "statement": "For every d_prior of at least one (the default is 1 + 1e-7), the average log likelihood plus (d_prior - 1) times the average sum of the logs of the proportions never falls while fit_movers (without controls) or fit_stayers iterates: allowing more iterations never returns parameters with a lower value, and never one below that of the starting values. For stayers from proportions of at least exp(-K), after recording n + 1 likelihoods it is within (1 + nl (d_prior - 1)) K / n of its value at any other proportions.", "quantifier": "every data set, numbers of types, prior of at least one, threshold, positive starting proportions, numbers of iterations and alternative proportions, under the conditions of C33 on weights, variances and constraints for movers", "why_tests_cant": "The recorded likelihood itself may fall when a prior is used, so only an argument over every iteration shows what is being increased.", "anchors": [{"file": "pytwoway/blm.py", "symbols": ["BLMModel._fit_movers"]}, {"file": "pytwoway/blm.py", "symbols": ["BLMModel.fit_stayers"]}]}
{"id": "C137", "title": "BLM estimates stay within the data", "statement": "After at least one iteration of fit_movers without controls, whatever the starting values, every estimated mean lies between the lowest and the highest wage of its firm type and period, every variance between its lower bound and the larger of that and the squared range of the wages (a quarter of it for unconstrained means), and every proportion between (d_prior - 1) / (1 + nl (d_prior - 1)) and d_prior / (1 + nl (d_prior - 1)); proportions sum to one. The same holds for the proportions returned by fit_stayers, with any controls. The constraints on the means may be monotone in worker type, stationary, or any that clipping to the bounds respects.", "quantifier": "every data set with all pairs of firm types (movers), positive weights, prior of at least one, threshold, starting values, number of iterations and constraint set closed under clipping", "why_tests_cant": "A bound on the outcome of every run from every starting value.", "anchors": [{"file": "pytwoway/blm.py", "symbols": ["BLMModel._fit_movers"]}, {"file": "pytwoway/blm.py", "symbols": ["BLMModel.fit_stayers"]}]}
{"id": "C138", "title": "The proportions of fit_stayers converge, with the default prior to one limit", "statement": "Without early stopping, with equal weights, every firm type observed and any d_prior of at least one, the proportions returned by fit_stayers converge as n_iters grows, from every positive start and whatever the wage parameters and controls. The limit has the highest penalised likelihood of all proportions. With d_prior above one (the default) the limit is the same for every start.", "quantifier": "every data set with all firm types observed, numbers of types, wage parameters, controls, prior of at least one and positive starting proportions, as the number of iterations grows", "why_tests_cant": "A statement about limits of runs of unbounded length from every start.", "anchors": [{"file": "pytwoway/blm.py", "symbols": ["BLMModel.fit_stayers"]}]}
{"id": "C139", "title": "The movers' EM loop settles down, at critical points of the penalised likelihood", "statement": "Without early stopping and without controls, under the conditions of C136, the type probabilities that Bayes' rule gives at the estimates of fit_movers after n and after n + 1 iterations differ by amounts that tend to zero; in their square roots the differences are square summable with an explicit bound. With free means, bounded variances, movers between all pairs of firm types and d_prior above one (the default), so do the changes of all means, standard deviations and proportions; some subsequence of the estimates converges, and whatever a subsequence converges to is returned unchanged by a further iteration and is a critical point of the penalised likelihood.", "quantifier": "every data set, numbers of types, constraints on means, positive weights with a constant product and admissible starting values, as the number of iterations grows", "why_tests_cant": "A statement about limits of runs of unbounded length of a non-concave problem from every start.", "anchors": [{"file": "pytwoway/blm.py", "symbols": ["BLMModel.fit_movers", "BLMModel._fit_movers"]}]}
{"id": "C140", "title": "Approximate traces: their spread, the reported standard deviation, and what more draws buy", "statement": "Over independent uniform signs, the average of N draws of an approximate trace (homoskedastic or heteroskedastic correction of any pair of components, or the trace for the error variance by 'hutchinson') has mean squared error v / N around the trace it stands for, where v is half the sum over pairs of different probe entries of the square of what the pair does to a draw beyond its entries separately. The square of the reported tr_..._sd averages to (N - 1)/N times v: it is the spread of one draw and does not shrink with N, so the error of the reported trace is smaller than it by a factor of about the square root of N. An error of at least e has probability at most v / (N e^2), and the corrected components computed with approximate traces converge in probability to those computed with the traces themselves. With 'hutch++' the error is that of the part of the probes outside the first stage, and nothing is left of it when the first stage caught everything or there are as many draws as observations. All but the last holds with controls as well.", "quantifier": "every data set with positive weights and identified effects, every pair of components, every number of draws, every tolerance", "why_tests_cant": "A statement about the distribution over all draws, for every number of draws and every data set.", "anchors": [{"file": "pytwoway/fe.py", "symbols": ["FEEstimator._estimate_approximate_trace_ho", "FEEstimator._estimate_approximate_trace_he", "FEEstimator._estimate_approximate_trace_sigma_2", "FEEstimator._collect_res"]}, {"file": "pytwoway/fecontrol.py", "symbols": ["FEControlEstimator._estimate_approximate_trace_ho", "FEControlEstimator._estimate_approximate_trace_he", "FEControlEstimator._estimate_approximate_trace_sigma_2", "FEControlEstimator._collect_res"]}]}
{"id": "C141", "title": "FE estimates are unbiased, the most precise linear ones, and more data make firm effects no less precise", "statement": "For errors with mean zero, every combination of the estimated firm and worker effects (relative to the first firm) is right on average whatever the error variances. If the error variances are inversely proportional to the weights, its mean squared error is no larger than that of any other sum of outcomes with fixed coefficients that is right on average for all effects, and equal only if the two agree for all outcomes. Hence the estimated difference between two firms' effects is no less precise when observations, workers or firms are added to the data. With other variances another linear estimate can be more precise. The same holds for the coefficients with controls.", "quantifier": "every data set with positive weights and connected firms, all true effects, all error distributions with the stated variances, all combinations of effects, all competing linear estimates, all enlargements of the data", "why_tests_cant": "An optimality statement over all competing estimators and all enlargements of the data.", "anchors": [{"file": "pytwoway/fe.py", "symbols": ["FEEstimator._estimate_ols", "FEEstimator._solve"]}, {"file": "pytwoway/fecontrol.py", "symbols": ["FEControlEstimator._estimate_ols"]}]}
{"id": "C142", "title": "Reported standard errors of coefficients are too small on average", "statement": "For data without weights and errors of one variance, the coefficient of a continuous control is right on average, and the square of the standard error reported without clusters averages exactly (n - k) / n times the mean squared error of that coefficient, where n is the number of rows and k the number of estimated parameters including all worker and firm effects. So the reported standard error is too small on average, and if there are no more than two rows per worker its square averages less than half of the mean squared error. The standard error clustered by worker is too small on average as well.", "quantifier": "every data set without weights whose coefficients are identified, every continuous control, all true effects and coefficients, all error distributions with uncorrelated errors of one variance", "why_tests_cant": "A statement about the expectation of a reported number over all error distributions; a simulation shows it for one design and one seed.", "anchors": [{"file": "pytwoway/fecontrol.py", "symbols": ["FEControlEstimator._estimate_clustered_se", "FEControlEstimator._estimate_sigma_2_fe"]}]}
{"id": "C143", "title": "Fits of the dynamic model that end by themselves", "statement": "In the dynamic model without controls and prior, with a positive threshold: a fit of stayers that estimates proportions and means (standard deviations and persistence kept, no ridge term and no constraints on the means) and a fit of movers that estimates proportions only end by themselves. The number of recorded likelihoods is at most two plus the distance from the starting likelihood to its highest possible value, measured in thresholds; once n_iters exceeds that number, the last two likelihoods are closer than the threshold and allowing more iterations changes nothing. (With other updates the likelihood can fall, see C77, and this argument is not available.)", "quantifier": "all data, numbers of worker and firm types, positive thresholds, starting values with standard deviations bounded below, numbers of iterations", "why_tests_cant": "A bound on the number of iterations for all data and starting values; a test shows that particular runs end.", "anchors": [{"file": "pytwoway/blm_dynamic.py", "symbols": ["DynamicBLMModel.fit_movers", "DynamicBLMModel.fit_stayers"]}]}
{"id": "C144", "title": "Estimated differences between firms become exact as the number of workers moving between them grows", "statement": "If K workers have an observation at each of two firms, no weight is below w and no error variance is above s2 over the weight, the mean squared error of the estimated difference of the two firm effects is at most 2 s2 / (w K), whatever the rest of the data. For two firms linked by a path of L pairs of firms with K_1, ..., K_L such workers it is at most L times the sum of 2 s2 / (w K_l), so that an error of delta or more has probability at most this over delta squared. Hence for every tolerance and probability there is a number of movers that suffices; it depends only on the length of the path, s2 and w, not on the numbers of firms, workers and observations.", "quantifier": "every data set with positive weights and connected firms, all true effects, all error distributions with variances within the bound, all pairs of firms and paths between them, all tolerances", "why_tests_cant": "A statement about probabilities under every error distribution, uniform over data of every size.", "anchors": [{"file": "pytwoway/fe.py", "symbols": ["FEEstimator._estimate_ols", "FEEstimator._solve"]}]}
{"id": "C145", "title": "Effects of workers and firms with few observations stay imprecise however large the data", "statement": "If no error variance is below s2 over the weight, the mean squared error of a worker's estimated effect is at least s2 over the total weight of the worker's observations, however many other workers, firms and observations there are; for the difference between two workers, or between two firms, it is at least the sum of s2 over the total weight of each of the two; for a combination of effects it is at least the sum over workers of the squared coefficient times s2 over the worker's total weight. With controls, the mean squared error of each coefficient is at least s2 over the weighted sum of squares of its column of regressors.", "quantifier": "every data set with positive weights and connected firms, all true effects, all error distributions with the stated variances, all workers, firms and combinations of effects", "why_tests_cant": "A lower bound on an expectation, uniform over data of every size and every error distribution.", "anchors": [{"file": "pytwoway/fe.py", "symbols": ["FEEstimator._estimate_ols", "FEEstimator._solve"]}, {"file": "pytwoway/fecontrol.py", "symbols": ["FEControlEstimator._estimate_ols"]}]}
{"id": "C146", "title": "By how much plug-in variances of firm and worker effects are too large on average, and that their covariance is not", "statement": "If error variances are s2 over the weight, the plug-in variance of firm effects is on average larger than the variance of the true firm effects by at least s2 times the number of firms less one, over the total weight (without weights: the number of observations); the plug-in variance of worker effects by at least s2 times the number of workers less one, over the total weight. The plug-in variance of the sum of both is too large by exactly s2 times the number of firms plus the number of workers less two, over the total weight, and the plug-in covariance of firm and worker effects is on average no larger than the true one. The bounds for firms and for workers also hold with unequal variances, none of which is below s2 over the weight; they are exact with one worker and with one firm.", "quantifier": "every data set with positive weights and connected firms, all true effects, all error distributions with the stated variances", "why_tests_cant": "A lower bound on a bias that holds for every data set and error distribution.", "anchors": [{"file": "pytwoway/fe.py", "symbols": ["FEEstimator._estimate_ols", "FEEstimator._estimate_fe"]}, {"file": "pytwoway/Q/Q.py", "symbols": ["VarPsi", "VarAlpha", "CovPsiAlpha", "VarPsiPlusAlpha"]}, {"file": "pytwoway/util.py", "symbols": ["weighted_var"]}]}
{"id": "C147", "title": "The bias of the plug-in variance of firm effects vanishes as mobility between firms grows", "statement": "If any two firms are linked by a path of at most L pairs of firms, each with K workers who have an observation at both firms, no weight is below w and no error variance is above s2 over the weight, the plug-in variance of firm effects is on average no smaller than the variance of the true firm effects and exceeds it by at most L^2 s2 / (w K). Hence for every tolerance there is a number of movers that suffices, which depends only on L, s2 and w.", "quantifier": "every data set with positive weights and connected firms, all true effects, all error distributions with variances within the bound, all L and K, all tolerances", "why_tests_cant": "A bound on an expectation that is uniform over data of every size and every error distribution.", "anchors": [{"file": "pytwoway/fe.py", "symbols": ["FEEstimator._estimate_ols", "FEEstimator._estimate_fe"]}, {"file": "pytwoway/Q/Q.py", "symbols": ["VarPsi"]}, {"file": "pytwoway/util.py", "symbols": ["weighted_var"]}]}
{"id": "C148", "title": "The plug-in covariance loses what the plug-in variances gain, up to a known term", "statement": "If error variances are s2 over the weight, the average plug-in variance of firm effects plus the average plug-in covariance of firm and worker effects exceeds the sum of the true ones by exactly s2 times the number of firms less one, over the total weight; for the variance of worker effects plus the covariance the excess is exactly s2 times the number of workers less one, over the total weight. Hence, if any two firms are linked by at most L pairs of firms with K movers each and no weight is below w, the covariance is on average too small by at most L^2 s2 / (w K), and the variance of worker effects too large by at most that plus s2 times the number of workers less one, over the total weight.", "quantifier": "every data set with positive weights and connected firms, all true effects, all error distributions with the stated variances, all L and K", "why_tests_cant": "Exact identities between expectations for every data set and error distribution.", "anchors": [{"file": "pytwoway/fe.py", "symbols": ["FEEstimator._estimate_ols", "FEEstimator._estimate_fe"]}, {"file": "pytwoway/Q/Q.py", "symbols": ["VarPsi", "VarAlpha", "CovPsiAlpha"]}, {"file": "pytwoway/util.py", "symbols": ["weighted_var", "weighted_cov"]}]}
