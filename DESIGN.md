# Design

A model of tlamadon/pytwoway in Lean 4 with Mathlib, and proofs about it. The code in /repo was read as text; nothing was run. `properties.jsonl` lists the properties, `MANIFEST.json` the theorems for each, `seeded/LOG.jsonl` the wrong programs the theorems were tried on, `seeded/RANDOM.jsonl` those produced by random edits of operators and constants in the definitions.

## Trusted base

- **Lean's kernel** (4.33.0) and the statements of Mathlib's definitions that occur in the theorems (reals, matrices, measures, finite sums).
- **Axioms.** No axiom is declared. Every theorem depends on a subset of `propext`, `Classical.choice`, `Quot.sound`; `AXIOMS.txt` lists the axioms of every property theorem as `#print axioms` reports them. There is no `sorry`, `admit`, `native_decide` or `bv_decide`.
- **The model.** Each definition cites the lines of /repo it stands for. That the definition says what the Python does is a reading of the code, not proved. The reading includes the behaviour of NumPy, SciPy, pandas, bipartitepandas and paramsdict calls.
- **The specifications.** Each property module has a section with the words of the property in Lean (`Spec...` or a section "Specification"), apart from the model.

## Conventions

- **Numbers.** Floats are exact reals. Rounding, overflow and `nan` arithmetic are left out. Where the code can divide by zero or take the logarithm of zero and the property is about it, the result is an explicit error or `none`.
- **Exceptions** are values: a raising step returns an error (`Except`, or an outcome beside the state). For methods that change an object the model returns the state also when it raises, so claims about crashes cover every crash point.
- **Random draws** are arguments; the theorems hold for all of them. Where a property speaks of an expectation the draws are random variables on an arbitrary probability space with the moments stated in the theorem.
- **Solvers** (sparse and iterative linear solvers, the quadratic-program solver, eigenvalues, least squares) are arguments assumed to be right: the theorem has a hypothesis such as "`solve` returns a solution of every solvable system". Beside it stands a proof that such a solver exists.
- **argsort** is any sorting permutation. A pandas group-by is a sum over the rows with equal key. Where the order of groups or rows matters (`C44`, `C70`) the order is kept.
- **Aliasing** of arrays and dictionaries is kept with an explicit heap where it matters (`C46`, `C49`).
- **Non-vacuity.** Beside each property theorem an `example` (or a named `sample...`) shows a concrete case that meets its hypotheses.
- **When the code does not have the property**, a theorem with a concrete input proves the negation and a `_partial` theorem proves what does hold. See "Defects" below.

## What is modelled

| file | modelled | not modelled |
|---|---|---|
| `util.py` | weighted_mean/var/cov, weighted_quantile, DxSP, SPxD, DxM, MxD, diag_of_sp_prod, diag_of_prod, logsumexp (NumPy), lognormpdf, fast_lognormpdf, scramble, unscramble, melt; exp_, log_, square_ and logsumexp with PyTorch (`BLM/Torch*.lean`) | GPU placement, f_star, jitter |
| `constraints/constraints.py` | all of it | sparse-matrix conversion inside particular solvers |
| `Q/Q.py` | VarPsi, VarAlpha, CovPsiAlpha, CovPsiPrevPsiNext, VarCovariate, CovCovariate | |
| `fe.py` | matrices, OLS, attached effects, plug-in components, exact and probed traces (HO, HE, sigma), leverages (exact, probed), Sii, the JLA factor, all option checks and the order of steps in `fit`, attributes created and deleted, the early statistics, the results dictionary, the summary, saving and loaded leverages, the dispatch and tolerance of linear solvers | the JSON format of saved results, log messages, finding and parsing leverage files (their contents are an argument) |
| `fecontrol.py` | layout of covariates, OLS, attached columns, plug-in components, standard errors, option checks and the order of steps in `fit`, HO and HE corrections, approximate leverages, names of quantities, results, summary and counts | batching of leverage draws over cores, reading and writing files, logs |
| `preconditioners/` | jacobi, vcycle (as an operator), ichol (linked-list algorithm), back substitution | the inner solver of the V-cycle, spilu (SciPy) |
| `cre.py` | moments, between-cluster regression, within-cluster parameters, posterior mean and variance, collected results, counts, the set_index length check, stored tables, the results dictionary and saving | files, logs |
| `borovickovashimer.py` | both estimators, weighted and unweighted; the row-level splits in `BS/Rows.lean` | `BS/Model.lean` takes groups as sets of rows, which is right for rows sorted by worker (`fitRows_eq`) |
| `sorkin.py` | flow matrix, iteration, convergence, result; SorkinAttrition with its plot | multiprocessing of the setup |
| `blm.py` | E-step with categorical and continuous controls, M-step without and with controls, pk updates, EM loops of movers and stayers, starting constraint rebuild, the check for cycles of the lowest firm type and `force_min_firm_type`, `_sort_parameters`, `_normalize`, `_gen_constraints` (base effects), `_simulate_types_wages`, connectedness, choice among runs, constructors (checks, starting values), bootstrap and variance decomposition (state), single-block fits, the estimator over many starting values (schedules, seeds, stored runs, plotted likelihoods), plots of earnings and type proportions (also bootstrapped) | drawing of plots (what is handed to Matplotlib is modelled) |
| `blm_dynamic.py` | `fit_A`, `fit_S`, `fit_pk`, `fit_movers_cstr_uncstr`, the data handling of bootstrap and variance decomposition, densities with controls, E-step, M-steps and EM loops of movers and stayers without controls and with categorical controls, the check for cycles and `force_min_firm_type`, persistence updates, `_var_stayers`, `rho_init`, `_sort_parameters`, `_normalize`, `_gen_constraints`, constructor's switches, the estimator over many starting values, plots of earnings and type proportions, `_simulate_types_wages` | M-step with continuous controls (unreachable, C73) |
| `blm_interacted.py` | linear estimator with all methods and options (linear, iv, liml_1, liml_2, hful, profiling, coarse instruments), fixed-point slopes, intercepts and worker effects, mean effects by firm | complex eigenvalues of weighted liml_2; rank diagnostics printed |
| `simblm.py`, `simdblm.py` | constructors, parameters with all options, firm and worker ids (static and dynamic), wages, columns and control draws | order of the columns (bipartitepandas) |
| `simbs.py` | all of it | |
| `attrition.py`, `attrition_utils/` | parameter dictionaries, increasing and decreasing subsets, one estimation, assembly of results, curves and boxes of the plots | titles and styling |
| `montecarlo.py` | parameter dictionaries, one simulation, positions of results, histograms' range | drawing |
| `command_line.py` | `main` from option texts to parameters, `clear_dict`, `str2bool` | options passed to bipartitepandas only |
| `diagnostics/plot_extendedeventstudy.py` | the values, error bars, counts, positions and ticks drawn; every failure | axis limits, y ticks, styling |

## Properties

For each: how it is modelled and proved; the outcome; the theorems are in `MANIFEST.json`.

- **C01** scramble/unscramble round trip. Model scramble/unscramble as list functions (index arithmetic kept). Prove permutation and round trip by index reasoning/induction; corollary: unscramble (map f (scramble l)) = map f l. *proved* (4 theorems). Full claim, all lengths.
- **C02** Weighted variance and covariance are coherent. Model the three functions over finite index sets with real entries (scalar weights = separate branch). Algebra over Finset sums. *proved* (11 theorems). Full claim. Nonnegative weights are required for cov(v,v)=var(v) (C02_cov_self_negative_weight shows why).
- **C03** Weighted quantile stays in range and is monotone. Model argsort as any sorting permutation of (value, weight) pairs, cumsum and np.interp on lists of reals. Range/monotonicity by induction on the grid. Order-independence is false for tied values with unequal weights: negation with witness, partial theorem for distinct values. *partial* (8 theorems). Range, monotonicity, error branch proved. Order-independence holds when ties carry equal weights (partial); false with tied values of unequal weights (C03_order_dependence_on_ties).
- **C04** logsumexp is exact and cannot overflow. Model the NumPy fallback on a non-empty row; real exp/log. *proved* (4 theorems). Full claim for the NumPy implementation; torch branch not modelled.
- **C05** Fast product diagonals equal the diagonal of the product. Model on functions Fin n -> Fin m -> K with explicit shapes, including the transposed recursive call for non-matching inner shapes. *proved* (5 theorems). Full claim, all shapes.
- **C06** Gaussian log density helpers. Model over reals with Real.log; error as Except; compare with Mathlib's gaussianPDFReal. *proved* (5 theorems). Full claim.
- **C07** Adding constraints intersects feasible sets. Model QPConstrained as a state holding lists of (row, bound) pairs for G,h and A,b; history = list of operations; invariant by induction. *proved* (8 theorems). Full claim over all histories of add/clear.
- **C08** Monotonic constraint means monotone in worker type. Build the constraint rows as the code does (by period, worker type, firm type with the flat column index) and prove feasible iff the English inequality. *proved* (3 theorems). Full claim.
- **C09** MonotonicMean and MinFirmType encode ordering of means. Same as C08. *proved* (6 theorems). Full claim for duplicate-free period lists; a repeated period gives a different constraint (C09_repeated_period).
- **C10** Linear and LinearAdditive encode (additive) linearity. Same as C08, existential characterisation proved both ways. *proved* (5 theorems). Full claim.
- **C11** Normalisation constraints pin exactly the documented entries. Same as C08. *proved* (6 theorems). Full claim; out-of-range firm type shown to constrain another effect.
- **C12** Stationary means equal across the constrained periods. Same; the nwt != -1 branch is false of the code (column nl*k+l): negation by witness plus partial theorem for nwt=-1 and nl=nk-free cases. *partial* (7 theorems). Holds for nwt=-1/nl; false for nwt<nl (C12_some_types_false) including the documented combinations.
- **C13** StationaryFirmTypeVariation means equal demeaned profiles. Same as C08. *proved* (2 theorems). Full claim.
- **C14** Bound constraints are exact. Same as C08. *proved* (2 theorems). Full claim.
- **C15** FE estimator solves the weighted two-way least-squares problem. Panel as a Fintype of observations with worker/firm maps and positive weights. Model the block elimination (worker block inverted elementwise, reduced firm system handed to an oracle solver). Prove normal equations, then optimality by the Pythagorean expansion. *proved* (3 theorems). Full claim; linear solver is an oracle assumed to solve solvable systems.
- **C16** FE estimates are unique and exact on connected noise-free data. Connectedness as Relation.ReflTransGen over sharing a worker/firm. Kernel of the design is trivial -> uniqueness; noise-free recovery as a corollary. *proved* (3 theorems). Full claim; connectedness shown necessary (C16_needs_connected).
- **C17** Exact leverages are a hat-matrix diagonal. Hat matrix from the same block formulas; idempotent + symmetric -> diagonal in [0,1]; trace by cyclicity. *proved* (6 theorems). Full claim, both the exact-inverse branch and the iterative branch.
- **C18** Leave-one-out variance estimates are unbiased and equal the leave-one-out prediction formula. Sherman-Morrison style leave-one-out argument done directly from normal equations; expectation modelled as a linear functional on second moments (finite probability space with product moments). *partial* (4 theorems). The leave-one-out formula is proved. Unbiasedness is false of the code under general heteroskedasticity because the mean of y is subtracted (C18_heteroskedastic_biased); exact expectation in C18_expectation; holds when variances are inversely proportional to weights (partial).
- **C19** Homoskedastic bias correction is unbiased. Expectation over any finite probability space with E[e]=0, E[e_i e_j]=sigma2/w_i if i=j else 0. The code's exact trace for worker effects uses a broadcast instead of a diagonal matrix: negation by witness; partial theorem for the components that use the correct blocks. *partial* (6 theorems). sigma2, var(psi), cov(psi,alpha) and every pair not both worker components: unbiased. var(alpha) with exact traces is biased upwards (C19_var_alpha_bias, C19_var_alpha_biased), a defect of the exact inverse's worker block.
- **C20** Heteroskedastic bias correction is unbiased. As C19 with heterogeneous variances. *partial* (12 theorems). Exact trace formula, bias formula and exact expectation proved. False of the code: heteroskedastic errors (C20_heteroskedastic_biased, mean of y subtracted), weights (C20_weighted_biased, exact trace divides by weights twice), cov(psi,alpha) exact trace (C20_exact_trace_cov). Unbiased for var(psi) unweighted with equal variances, and for every pair with the right or probed trace (partial); C20_stayers_partial covers stayers and weights with either stayers_var option when variances are inversely proportional to weights.
- **C21** Random-probe traces are unbiased. Expectation = average over all sign vectors (Fintype sum / 2^n). *proved* (7 theorems). Full claim: HO, HE, sigma^2 by Hutchinson and Hutch++ (Q an arbitrary orthonormal oracle). Hutch++ with more draws than observations fails (C21_sigma2_hutchPP_refused).
- **C22** Approximate leverages are well-formed and independent of batching. Batch averages as nested means; algebra. *proved* (4 theorems). Full claim, plus expectations of P and M. Same draws assumed across the split; the code seeds each core separately.
- **C23** Plug-in components are the weighted (co)variances of attached effects. Quadratic forms over the observation index set. *proved* (3 theorems). Full claim.
- **C24** Control-variable estimator keeps coefficients apart. Layout as a list of sizes with running offsets; induction over the list. *proved* (7 theorems). A control named psi or alpha breaks the layout (C24_name_clash).
- **C25** Clustered standard errors cluster every pair sharing a group. The code builds the indicator from the design with the first category dropped: negation by witness, partial theorem for pairs outside the normalised category. *partial* (7 theorems). Pairs sharing the first (normalised) category of a cluster covariate are not clustered, not even an observation with itself (C25_first_category); with one firm, clustering by firm gives standard error 0 (C25_one_firm). With weights the sandwich lacks the weights (C25_sandwich). Two-way clustering can make the radicand negative (C25_two_way_negative).
- **C26** CRE leave-out means exclude exactly the own observation or cluster. Group sums over finite sets; algebra. *proved* (7 theorems). Full. Stayer rows at firms without movers in both directions are dropped by the inner merges (C26_stayers_kept).
- **C27** CRE within-cluster parameters invert the moment map. Moment map and the code's inversion as rational functions; field_simp. cov(As,psi) is wrong in the code: negation plus partial. *partial* (4 theorems). Missing: cov_AsPsi1 and cov_AsAs. cre.py:426 does not halve the sum of the two estimates; C27_stayer_cov_wrong is a population with true covariance 0 and reported covariance 1.
- **C28** CRE results decompose additively. Result record, algebra. *proved* (4 theorems). Full.
- **C29** Borovickova-Shimer moments are leave-out unbiased. Pairwise-product formula over lists; expectation as in C19. *partial* (6 theorems). Proved for arbitrary noise variances and weights: pairs of distinct observations carry no noise, so worker/firm squared means are unbiased; the variance and covariance estimates equal those from the means less the variance of the overall mean (the square of the overall mean carries noise, so 'no noise term' is only partly true); the covariance needs distinct matches, with a witness that repeated matches add noise.
- **C30** Sorkin values are the stationary revealed-preference ranking. Iteration as a function on vectors; conservation law gives eigenvalue one at convergence; approximate version with threshold. *proved* (6 theorems). Fixed point, normalisation, uniqueness under strong connectedness and the threshold bound proved. The iteration need not converge: with two moves one way and one back it oscillates for any number of passes and the returned values do not balance the flows (C30_not_convergent).
- **C31** E-step posteriors are probability vectors given by Bayes' rule. Row model of the E-step with logsumexp; Bayes formula. *proved* (3 theorems). Full, for movers and stayers, with categorical and continuous controls.
- **C32** Type-proportion updates are proper when every cell is observed, and fail loudly otherwise. Flattened bincount model with explicit failure branches. *proved* (5 theorems). Movers proved. For stayers an unobserved firm type silently gets NaN (C32_stayers_silent_nan).
- **C33** EM never lowers the likelihood. Jensen/Gibbs inequality on finite sums; induction over iterations. *proved* (5 theorems). Recorded path non-decreasing without a Dirichlet prior. With the default d_prior > 1 the recorded path may fall after the first iteration (C33_prior_lowers).
- **C34** M-step returns weighted means and variances. Weighted least squares by cell. *proved* (3 theorems). Without controls. The M-step raises if the top firm type is not observed in both periods (C34_raises). The controls' M-step is not modelled.
- **C35** Sorting types is a relabelling. Permutations of Fin nl, Fin nk; argsort as a sorting permutation; flat pair index. *proved* (5 theorems). Full.
- **C36** Normalising effects does not change predictions. Branch-by-branch model of _normalize on one time-varying/stationary, interacted/non-interacted column. *proved* (6 theorems). Full.
- **C37** Reallocation draws worker types from the population proportions. Model reshape + weighting; the transposition bug and the unbound variable are in the code: negations by witness, partial theorem for symmetric flows / first period. *partial* (6 theorems). The code pairs the flow a->b with the proportions of b->a (C37_transposed, C37_wrong); correct for symmetric flows (partial). reallocate_period 'second' and 'all' raise without reallocate_jointly (C37_separate_raises).
- **C38** Estimator keeps the best-connected of the most likely models. Stable sort + prefix + argmax on lists. *proved* (3 theorems). Full.
- **C39** Bootstrap and variance decomposition leave the user's data as it was. Small state machine with exceptions at any inner step: restoration holds on normal exit only (negation on crash). *partial* (6 theorems). Restored on normal return; an exception inside a repetition leaves the data changed (C39_bootstrap_crash, C39_vardec_crash).
- **C40** Single-block fits update what they say and restore settings. Small interpreter of the tail of the M-step with unbound variables as errors. *partial* (7 theorems). fit_S and fit_pk restore the settings when they return; a raise loses them; fit_A always raises.
- **C41** Interacted model's linear estimator returns a1,b1 satisfying the moment condition. Design rows over Fin nf; layout and identity. stationary_a is violated when B1 != B2: negation. *partial* (10 theorems). Proved for the linear estimator without profiling, coarsening, liml_2 and hful (see C100 for these). liml_1 recovers the true slopes and intercepts from noiseless wages when the moment condition identifies them; the iv method does so without weights and is refuted with weights (C41_iv_weighted_wrong); stationary_a restricts the ratio a/b, not a (C41_stationary_a); exactly noiseless data and the worker_ids instrument raise.
- **C42** Interacted fixed point for a and alpha solves the weighted least squares. Same block elimination as C15 with weights b. *proved* (1 theorems). Given exact slopes and an exact solve of the reduced system, the returned intercepts and worker effects minimise the weighted squared residuals with the last firm's intercept zero.
- **C43** Simulated identities are consistent. Model the generating loops and the redraw loop (as any finite run). *proved* (8 theorems). Proved for every parameter set and every oracle of draws: worker ids identify workers, movers change firm, firms lie in their clusters' ranges, row counts match NNm, NNs and the multipliers.
- **C44** Simulated movers' firms belong to their clusters. Group-order versus row-order: j1 proved, j2 negated by witness. *partial* (7 theorems). The first period's firm lies in the recorded cluster; the second does only when flows between clusters are one-directional in the way C44_second_iff says; C44_second_wrong exhibits the defect.
- **C45** Simulated parameters satisfy the requested structure. Sort model + broadcasting model. *partial* (8 theorems). All options proved except stationary_firm_type_variation, which raises or produces a wrong result (C45_firm_variation_*).
- **C46** Dynamic simulation parameters honour endogeneity and stationarity options. Heap model (references) of the parameter dictionary; aliasing negation by witness; partial theorem without stationary_A. `C46_types_ordered` and `C46_strictly_ordered` for the order of types. *partial* (10 theorems). Switching an effect off zeroes exactly that effect unless stationary_A is set, in which case the arrays are shared and every period is zeroed (C46_stationary_zeroes); stationary_A then makes the simulation raise, and stationary firm variation always raises.
- **C47** Increasing attrition samples are nested and reproducible. Iterator model: list of subsets from a permutation, with restore of the mutated option. *partial* (8 theorems). The nesting, sizes and fractions are proved; the user's cleaning parameters are restored only when the iteration does not raise (C47_parameters_lost).
- **C48** Attrition results are assembled per fraction. Combine model with the failing branch as an error. *partial* (3 theorems). Proved when some fraction exceeds its predecessor; for decreasing attrition np.flip is applied to dictionaries and raises (C48_decreasing_raises).
- **C49** Monte Carlo results are indexed by simulation. Schedule-independent map model. *proved* (4 theorems). Position of every simulation's estimates for one and several cores; exact parameter dictionaries, with aliasing of the caller's dictionaries.
- **C50** Connectedness measure is the second-smallest Laplacian eigenvalue and zero for disconnected types. Laplacian quadratic form (nonnegativity, zero for disconnected), invariance under relabelling; the eigenvalue itself through the Rayleigh quotient. *partial* (8 theorems). Flows are paired with the opposite flow's proportions, so the value is right for symmetric flows (partial); zero iff disconnected holds for all flows when every proportion is positive. all=True is ignored.
- **C51** Borovickova-Shimer simulator produces balanced matches. Loop invariant over draws; slices of an argsort permutation. *partial* (9 theorems). Counts, matching and assortativity are proved for every draw; the parameter check is exact for |rho| < 1, at rho = +-1 the threshold is nan and parameters pass (C51_perfect_correlation).
- **C52** Preconditioners act as the documented operators. Jacobi as a vector operation; triangular solves by induction. *partial* (12 theorems). Jacobi, V-cycle and Cholesky operators proved symmetric positive definite on the two-way estimator's matrix; Jacobi divides by the diagonal only where it exceeds 1e-8 (C52_jacobi_small); with a categorical control the default V-cycle is indefinite (C52_controls_vcycle_indefinite); spilu is external.
- **C53** Starting values for rho match the stayers' moments. Polynomial identities; code's matrix is wrong in three entries: negation by witness, partial for the remaining moments. *partial* (6 theorems). Seven of ten moments are right; the other three are wrong (C53_wrong_rows), so the criterion is positive at the truth (C53_truth_rejected); weights are misaligned for two or more firm classes and differences work only for eight.
- **C54** Dynamic normalisation does not change predictions. KeyError branch modelled; negation + partial. *partial* (4 theorems). Whenever it returns the model is unchanged; what is normalised is C54_normalised and C54_normalised_first. It raises KeyError unless some control is time-varying and interacts with worker types (C54_raises).
- **C55** Rho update minimises the weighted residuals. One-dimensional weighted least squares. *proved* (2 theorems). The update is the unique minimiser of the weighted squared residuals; it is not an ascent step of the likelihood (C55_likelihood_can_fall).
- **C56** Options are validated before work starts. Full decision table. *partial* (16 theorems). Exactly which options FEEstimator, FEControlEstimator and the linear interacted estimator accept, which exception the others raise, and that accepted ones select one method per task. The check comes before any work only for the control estimator's exact options and the interacted validation; elsewhere it comes after OLS (C56_fe_late, C56_control_late, C56_interacted_hful). Constraints of the BLM models are the subject of C07-C14, C58 and C59.
- **C57** Long-format melting labels every value with its own indices. Arrays of any shape as functions on multi-indices; C-order ravel against the order in which the code writes the index columns. *partial* (2 theorems). False of the code: C57_melt_mislabels. Holds for arrays with one column.
- **C58** A constrained solve minimises over exactly the added constraints. Solver oracle with the contract 'returns a minimiser over what it was given, or fails if there is none'; feasible set taken from C07's spec. *partial* (5 theorems). Solver is an oracle assumed optimal. check_feasible raises for two periods and pad on an empty set breaks, both proved.
- **C59** Constraints generated by a BLM model do not depend on how control columns are named. Model of `_gen_constraints` as the list of constraint objects it adds; compared under permutations of the controls' dictionary. *partial* (3 theorems). Partial: false in general (C59_depends_on_column_order), holds when every interacted control is stationary.
- **C60** Stayers get the documented variance estimate. Sii branch by branch; leave-one-out for a worker with a single firm computed directly. *partial* (6 theorems). With weights, upper_bound uses 1/T for the leverage w/T, so only rows of weight 1 get the leave-one-out estimate; a stayer in a single row gets 0 (C60_single_row_stayer). C60_unbiased: in expectation the estimates are the true variances when these are inversely proportional to weights.
- **C61** Estimates with controls are a weighted least-squares fit. Design matrix as a list of columns; normal equations from the oracle's contract, then the Pythagorean identity. *proved* (1 theorems). 
- **C62** Standard errors without clusters match homoskedastic least squares. Standard errors as the code's sandwich; compared with sigma^2 times the diagonal of the inverse. *partial* (3 theorems). Holds without weights; with a common weight k the squared standard error is off by 1/k^2 (C62_weighted).
- **C63** CRE cluster effects are the least-squares fit of wage changes. Design of wage changes on cluster dummies with the last cluster dropped; nonsingularity from connectedness of clusters. *proved* (3 theorems). Full, assuming spsolve solves nonsingular systems; nonsingularity is proved from connectedness.
- **C64** CRE posterior variance is the posterior expectation of the firm-effect variance. Posterior of a Gaussian prior as a quadratic form; expectation of the code's probe average over standard normal probes. *partial* (5 theorems). Posterior mean proved. var_posterior mixes ddof=0 and ddof=1 so its probe average exceeds the posterior expectation by 1/n of the second term; firms without movers get prior mean 0 instead of their cluster effect (C64_stayer_only_mean).
- **C65** BS estimator reports the variance of outcomes and gives the same answer by both methods. Both estimators as finite sums; equality by rearranging group sums. *partial* (7 theorems). Unweighted: proved for both estimators. Weighted: the code's var(y) is the variance of weight*outcome (witness), and the weighted alternative estimator reports -c^2/2 for constant wages (proved for all panels).
- **C66** Approximate leverages are corrected for the bias of dividing by a noisy number. Second-order expansion of a ratio as an exact identity plus remainder; the code's factor next to the right one. *partial* (3 theorems). The code's factor differs from the one removing the second-order bias by an explicit term (C66_factor, with a concrete case).
- **C67** SorkinAttrition correlates each firm's value with that firm's own effect. Index arithmetic of the attrition comparison. *partial* (2 theorems). Fails: the effects are shifted by one firm; aligned only if all effects are zero.
- **C68** EM stops and records as documented. Loop as structural recursion on the number of iterations left; recorded lists by induction. *proved* (5 theorems). Full, without controls for movers.
- **C69** Fixed-point slopes recover the truth. Slopes' iteration as a map on ratios; fixed points characterised through ratios of mean wages. *partial* (4 theorems). Holds when a worker's observations carry equal weights (C69_default_recovers for the default settings, C69_recovers_partial for all settings given that the fixed point is unique); refuted for weights that differ within a worker (C69_weighted_wrong). Workers with equal mean wages are assumed not to interleave.
- **C70** Mean worker effects by firm line up with firms. Group-by result as the list of firms that occur; positions compared with firm ids. *partial* (3 theorems). Holds when every firm has a stayer; firms without stayers are dropped from the array, shifting all later entries (C70_misaligned). C70_general says what is returned in every case.
- **C71** Simulated wages follow the model the estimator assumes. Image measure of the standard normal under the wage equation against Mathlib's gaussianReal. *proved* (2 theorems). Law of the simulated wage has density exp(lp) for independent standard normal draws; types drawn from the row KK.
- **C72** The parametric bootstrap draws wages from the estimated model. As C71 for `_simulate_types_wages`. *partial* (2 theorems). Proved without weights; with weights the draws have variance S^2/w^2 and re-estimation does not give S^2 (C72_weighted_variance).
- **C73** Dynamic simulated wages follow the dynamic estimator's model. As C71 for the four wages of a dynamic mover and the stayers, sequentially. *partial* (5 theorems). Proved without controls and with categorical controls of standard deviation 0 or 1; the simulator adds controls' standard deviations unsquared (C73_controls_wrong) and continuous controls make the likelihood raise (C73_continuous_raise).
- **C74** The dynamic parametric bootstrap draws from the estimated model. As C73 for the dynamic bootstrap. *partial* (2 theorems). Proved without controls; with any control the bootstrap raises KeyError (C74_controls_raise).
- **C75** Dynamic worker-type posteriors and proportions. E-step of the dynamic model; Bayes' rule and averages. *proved* (5 theorems). Dynamic model without controls. Posterior, proportions and when the update raises.
- **C77** The dynamic EM never lowers the recorded likelihood. Gibbs' inequality for the EM step with the code's M-steps; lowering M-steps shown on concrete data with exact reals. *partial* (20 theorems). False as stated: C77_movers_means_lower (rows weighted by 1/sd instead of 1/variance), C77_movers_variances_lower and C77_stayers_variances_lower (variance regression with wrong signs and powers, C77_stayers_variances), C77_prior_lower (prior missing from the first recorded value), C55_likelihood_can_fall for the persistence. Proved: stayers' proportions and means, movers' proportions; what each update minimises; parameters not to be updated are kept. Without controls.
- **C78** The dynamic EM stops at the documented thresholds. As C68. *partial* (4 theorems). False for stayers: threshold_stayers is never read (C78_threshold_ignored, C78_stayers_wrong); stated and proved with threshold_movers. Movers: proved with the smallest firm type forced.
- **C76** Switching endogeneity or state dependence off removes that effect. Constructor's switches on a dictionary of arrays; effect on the model's means. *partial* (5 theorems). Proved without categorical controls; with one the constructor raises (C76_controls_raise); continuous controls keep their effect (C76_continuous_kept).
- **C79** The movers-per-firm line of the attrition plots is where the averages cross the full sample's value. Interpolation of the crossing as in the code. *partial* (3 theorems). Proved for averages that never fall along the axis; drawing the plots without the line always raises (C79_no_line_raises).
- **C80** Decreasing attrition samples are nested and of the requested sizes. Subsets as prefixes of one permutation; rounding as floor inequalities. *proved* (3 theorems). Nesting, sizes up to rounding and one sample per fraction.
- **C81** The Monte Carlo histograms show every estimation error. Range of bins against minimum and maximum of errors. *proved* (1 theorems). All errors are inside the range.
- **C82** Simulated Borovickova-Shimer wages have the requested moments. Gaussian vectors on an arbitrary probability space; moments of linear combinations. *partial* (4 theorems). Moments proved for positive variances, |rho| < 1, and a firm type equal to the drawn chi; columns are scaled (C82_columns_scaled), border cases give no finite wage (C82_degenerate_undefined).
- **C83** Incomplete Cholesky approximates the matrix within its thresholds. Linked-list algorithm refined to a dense recursion by an invariant on heads and pointers; error terms entry by entry. *proved* (5 theorems). ichol's linked-list algorithm refines a dense factorisation; error bound, exactness with zero thresholds, success on the estimator's matrix. A column without a stored diagonal entry is misread (C83_missing_diagonal).
- **C84** An estimator can be fitted again. State machine of the estimator's attributes with an invariant kept by every statement. *partial* (9 theorems). Outcome, path and results of a repeated call proved for all call sequences, for both estimators, by an invariant of the estimator's attributes. False: matrices stay behind if he is set with statsonly or feonly (C84_leftovers; exactly then by C84_no_leftovers_partial, C84_control_leftovers_partial). With an output file the stored results are strings.
- **C85** Homoskedastic correction with controls is unbiased. Covariates as matrix columns; estimates as quadratic forms in the errors; traces of the probes' second moments. *proved* (8 theorems). Traces drawn with probes of mean 0 and variance 1, uncorrelated across coordinates; solver returns a solution of the normal equations when there is one.
- **C86** Heteroskedastic correction with controls. As C85; leave-one-out by replacing a row's outcome with its prediction; each treatment of stayers separately. *partial* (13 theorems). Leverages, files, leave-one-out and traces proved in general. Unbiasedness holds for error variances inversely proportional to the weights with true leverages: C86_he_unbiased_partial covers firm_mean, unweighted upper_bound and movers-only data. False otherwise: C86_heteroskedastic_biased, C86_not_upper_bound. The JLA factor is the subject of C66.
- **C87** Effects of control variables are least-squares updates from current values. Block coordinate descent: each block's normal equations identified with a weighted least-squares objective; loop compared with one that recomputes every cache. *proved* (7 theorems). Proved for movers; solver: any exact minimiser of the quadratic programme within the column's constraints. Column weights use the column's own variance, not the total.
- **C88** With controls EM raises the likelihood and variances fit the residuals. Effects half of the M-step by C87; variances computed block by block and summed; a concrete two-worker dataset for the fall. *partial* (5 theorems). False of the code: the variance half counts the residual once per block. Effects half proved not to raise the weighted squared residuals when all blocks share one variance.
- **C89** Covariance between consecutive firm effects. Rows of the two halves matched with pairs of consecutive observations by a bijection; corrections by the general theorems of C19-C21. *partial* (8 theorems). Plug-in and homoskedastic correction proved in full. The heteroskedastic correction inherits the limits of C20 (proved for variances inversely proportional to weights, movers only). Needs data grouped by worker (C89_needs_grouped).
- **C90** Sorting the dynamic model's types only renames them. Model every array; show the result is a relabelling and that relabelling leaves the mixture likelihood unchanged by reindexing sums. *proved* (5 theorems). Full; likelihoods with continuous controls cannot be computed by the code (C73_continuous_raise).
- **C91** Constraints imposed when estimating the dynamic model. Model the list of constraint objects for movers and stayers; characterise the accepted vectors through C08-C14; exhibit a vector accepted for an interacted control whose 'b' standard deviations differ by worker type; compare column numbers for user constraints. *partial* (7 theorems). C91_base_means_partial, C91_base_sds, C91_control_means and C91_control_sds_partial characterise the feasible sets; they need the controls that interact with worker type to be stationary (as C59) and say nothing about 'b' standard deviations of interacted controls, which the code leaves free (C91_control_sds_b). C91_user_constraint_fits_one: any user constraint makes either the movers' or the stayers' solver raise.
- **C92** The command line passes on exactly what was given. Model main as a function from option texts to the estimators run and their parameter dictionaries, with the data functions as oracles; characterise the dictionaries; show which options always raise. *partial* (5 theorems). C92_parameters_partial: a run that does not raise uses exactly the given values and the defaults. Partial because number options always raise (C92_options_that_raise). paramsdict (not in the repository) is assumed to refuse unknown keys and text where a number or a truth value is required; NumPy refuses text as seed.
- **C93** The basic statistics of the data are the documented moments. Model the groupby sums, counts, variances and quantile calls; prove the within/between decomposition from firm-wise cancellation and the ordering from the normal equations of the least-squares fit (C15). *proved* (5 theorems). 
- **C94** Event-study plots show each transition's average wages. Model the figure as the grid of drawn values with matplotlib's and pandas' failures as errors; prove the grid's content for equal windows; prove that unequal windows, a single type and unclustered data always raise. *partial* (5 theorems). partial: the code raises for unequal windows, one firm type and unclustered data, which the three negative theorems prove.
- **C95** Controls in the dynamic model's EM algorithm. Model the index order of the regressions, the M-steps of movers and stayers with any list of categorical controls and the movers' loop; prove which controls raise, what the updates minimise, that the running sum equals the sum at every iteration (refinement of the loop that recomputes it), and the failures: stayers' controls get the firm types' effects, variances are counted once per part. *partial* (20 theorems). False in part: the stayers' M-step overwrites every control's effects with those of the firm types (C95_stayers_overwritten) and uses second-period categories in the third period (C95_stayers_third_period); so C95_stayers_base_partial covers the main effects. C95_movers_means_partial: weights come from one control's standard deviations only. Proved in full: the design and its order, running sums (C95_stayers_no_stale_sum), posteriors (C95_stayers_posterior), persistence (C95_stayers_rho). With continuous controls the E-step already raises (C73_continuous_raise).
- **C96** Cycles of the lowest firm type, and forcing it. Model the check as a machine on the list it keeps and prove by induction over the loop that it fires exactly when the history has such a run; prove the choice of the best fit by induction over the firm types; model fit_movers with both branches, the restart and the setting; prove what it stores, and the failures: pk0 keeps the old order, the setting stays on after a raise, the dynamic model always raises. *partial* (14 theorems). Exactly-when claim about the check, the choice of the best fit and the restart are proved in full. False of the code: if a restarted fit raises the setting stays on (C96_setting_left), pk0 is not put into the order of the other parameters (C96_pk0_mismatch), and in the dynamic model forcing and every detected cycle raise TypeError (C96_dynamic_forced, C96_dynamic_cycle). Solver answers are assumed to meet the constraints (C96_forced_lowest).
- **C97** Dynamic model: wrappers give back what they borrow. Frames as columns, outside steps as arbitrary functions that return or raise, state returned with every outcome; induction over samples. Single-block fits on the EM loop of movers, by induction over iterations, composed with the two sorts. Sequence of settings recorded by an arbitrary fit. Prove restoration on normal return where it holds, and what is lost: stayers' first firm on every return of the variance decomposition, data and settings after a raise, persistence parameters. *partial* (20 theorems). The partial theorems are about calls that return; after an exception the settings and data are left changed (C97_fit_pk_raises). False parts: stayers' first firm is lost (C97_stayers_firms_lost), firm types and identifiers are mixed (C97_ids_mixed), persistence parameters change (C97_persistence_changed).
- **C98** Estimation with several starting values does not depend on the schedule, and stores and plots exactly its runs. `Verif/BLM/Estim.lean` models seeds, one process and a pool with its own memory per process and an arbitrary schedule, the stored arrays and the plot; `EstimProps.lean` proves that schedules do not matter (`C98_schedule`, `C98_schedule_dynamic`), seeds are fresh (`C98_seeds`, `C98_seeds_prefix`), which model is kept (`C98_kept`), what is stored (`C98_recorded_partial`) and drawn (`C98_plot_partial`), and that more starts help with `n_best=1` (`C98_more_starts_partial`).  It fails when runs have no connectedness (zeros are stored and drawn, `C98_zeros_stored`), for `n_best > 1` (`C98_more_starts_worse`), with `jitter=True` and an empty group (`C98_plot_jitter`), after a failed call (`C98_fails`, `C98_plot_stale`), and in which exception is raised (`C98_which_exception`). *partial* (18 theorems). False parts: zeros are stored for runs without connectedness (C98_zeros_stored), more starts can lower the likelihood with n_best > 1 (C98_more_starts_worse), fit and the plots raise in some settings (C98_fails, C98_plot_stale, C98_plot_jitter); the partial theorems cover the rest.
- **C99** Plots of estimated models show the estimated effects and the shares of worker types. `Verif/BLM/Plots.lean` models what is handed to Matplotlib, with the counts as pandas builds them (classes that do not occur have no row) and NumPy's broadcasting; `PlotsProps.lean` and `PlotsBoot.lean` prove the log-earnings plot (`C99_log_earnings`), that bars reach one (`C99_bars`), stayers' shares (`C99_stayers`), the averages of the bootstrap (`C99_bootstrap_bars`) and its error bars for up to forty models (`C99_error_bars_partial`).  It fails for movers and all workers: rows of `pk1` are paired with the opposite flows, so with symmetric flows the two periods are exchanged (`C99_periods_swapped`, `C99_types_wrong`; `C99_types_partial` if opposite moves have the same types); when a class has no mover (`C99_class_without_movers`, `C99_bars_for_nobody`, `C99_bootstrap_stayers_refused`); in the dynamic guard for stayers (`C99_dynamic_stayers_refused`); with 41 or more models (`C99_error_bars_raise`). *partial* (15 theorems). C99_types_partial needs opposite flows with the same type probabilities, because pk1 is reshaped in the wrong order (C99_periods_swapped, C99_types_wrong); C99_error_bars_partial needs at most 40 models (C99_error_bars_raise).
- **C100** Interacted estimator: liml_2, hful, profiling and coarse instruments recover the effects. `Verif/Interacted/Other.lean` models `_fit_a_b_linear` with all methods and options, with design matrices as functions, eigenvector oracles and NumPy's exceptions; `C100_agrees` shows it equals the model of C41 where that applies.  `liml_2`: the returned effects are the unique minimiser (`C100_liml2_minimises`), it recovers (`C100_liml2_recovers_partial`) and returns (`C100_liml2_returns`) with equal weights; false with weights (`C100_liml2_weighted_wrong`).  `hful` with `C = 0`: `C100_hful_minimises_partial`, `C100_hful_recovers_partial`, `C100_hful_returns`, all for equal weights and the last two for firm pairs of one size; false for pairs of different sizes (`C100_hful_pairs_wrong`) and for weights (`C100_hful_weighted_wrong`); with its default `C = 1` it does not solve its own equations (`C100_hful_default_wrong`), and exact data raise (`C100_hful_noiseless_raises`).  Coarse instruments: `C100_coarse_recovers`.  Profiling: `C100_profiling_recovers_partial` if the noise is also uncorrelated with first wages, likewise with free intercepts (`C100_profiling_free_recovers_partial`), wrong otherwise (`C100_profiling_wrong`), one slope for both periods (`C100_profiling_one_slope`), and with two firms it always raises (`C100_profiling_two_firms_raises`). *partial* (20 theorems). hful is proved for C = 0, equal weights and pairs of equal size, liml_2 for equal weights, profiling under extra moment conditions; outside these the claim is false (C100_hful_default_wrong, C100_hful_pairs_wrong, C100_hful_weighted_wrong, C100_liml2_weighted_wrong, C100_profiling_wrong).
- **C101** FE results: every requested quantity under its own name, summary, saving, counts and loaded leverages. `Verif/FE/Results.lean` models names as character lists, dictionaries as insertion-ordered lists, `_construct_Q`'s comprehensions, `_collect_res` statement by statement with reads that may raise, `_save_res`, the counts and the leverage loader.  `C101_values_partial`, `C101_summary_partial`, `C101_succeeds_partial` hold for distinct requests over columns without spaces or commas and no control called `eps`; names then determine requests (`C101_names_partial`).  The full claim is false: `C101_names_clash`, `C101_eps_clash` (a control `eps` overwrites the residual variance), `C101_counts_clash` (a control `firms` overwrites the number of firms).  `C101_saved`, `C101_saved_numbers`: saving turns `res` itself into text.  `C101_missing`, `C101_bad_requests`: error branches.  `C101_levfile`: when loaded leverages are accepted and what is stored. *partial* (14 theorems). Values, names, counts and the summary are proved for requests whose column names have no space or comma and for controls not called firms, workers, movers or stayers; the theorems' docstrings say what happens otherwise.
- **C102** SorkinAttrition: one correlation per simulation and fraction, for any number of cores. `Verif/Sorkin/Attrition.lean` models the class over the subsets of C46/C47; both estimators are oracles.  `C102_correlation` (against a specification of correlation), `C102_units`, `C102_cores`, `C102_failed`, `C102_plot`, `C102_stored_partial`.  The full claim is false: the effects are followed instead of preceded by the zero of the reference firm, so every firm's value is paired with the effect of the next firm; with two firms the sign is reversed (`C102_two_firms`, `C102_run`).  After a failed draw the object no longer drops single stayers (`C102_dropping_lost`). *partial* (11 theorems). C102_stored_partial says what is stored. That the effects belong to the firms they are paired with is false (C102_two_firms, C102_run): the reference firm's zero is put at the wrong end.
- **C103** Attrition: which parameters each estimation uses and what it reports. `Verif/Attrition/Params.lean` models the constructor with a heap of dictionaries; `Verif/Attrition/Interior.lean` one estimation with oracles for cleaning, clustering and estimators.  `C103_parameters_partial`; the full claim is false with increasing fractions, where the clustering step keeps asking for the connected set (`C103_cluster_stale`).  `C103_sorkin`, `C103_bs_entries`, `C103_bs_adds`, `C103_independent`. *partial* (6 theorems). With increasing fractions the clustering uses cleaning parameters that still ask for the connected set (C103_cluster_stale).
- **C104** One Monte Carlo simulation reports exactly the true moments and the entries of the estimators. `Verif/Attrition/Interior.lean`, `Verif/Attrition/MonteInterior.lean`, with oracles for simulation, cleaning, clustering and estimators.  `C104_entries`, `C104_true` (moments against their specification), `C104_bs_adds`, `C104_missing`, `C104_run`.  The true values are those of all simulated observations, not of those that cleaning keeps (`C104_true_other_sample`). *proved* (6 theorems). 
- **C105** Attrition plots show exactly the estimators asked for, with averages over runs. `Verif/Attrition/Plots.lean` models what is drawn (curves, boxes, numbers of sub-panels, lines) on top of the combined results of C48.  `C105_plots_partial`, `C105_averages`, `C105_boxplots_partial`, `C105_not_run`.  The full claim is false: `C105_boxplots_fail` (one estimator for the connected set, for instance FE with FE-HE, raises TypeError), and the failures of C48 and C79 (decreasing fractions, no line). *partial* (6 theorems). Plots with decreasing fractions or without the line of the full sample raise (C48_decreasing_raises, C79_no_line_raises), box plots with fewer than two estimators besides FE-HE raise (C105_boxplots_fail).
- **C106** CRE counts, the collapsed check, stored tables and the results dictionary. `Verif/CRE/Prep.lean`.  `C106_counts`, `C106_collapsed` (the error is raised exactly when some stayer has more than one row), `C106_mover_table`, `C106_stayer_table`, `C106_results`.  The list for stayers is indexed by position among the clusters with stayers: `C106_stayer_table_partial` if all have stayers, `C106_stayer_table_shifted` otherwise. *partial* (9 theorems). The table of stayers' averages is right only if every cluster has stayers (C106_stayer_table_shifted shows the rest).
- **C107** Model constructors: checks and starting values. `Verif/BLM/Start.lean` models both constructors with the generator as a state machine and draws in program order.  `C107_raises`, `C107_starting_values`, `C107_bounds` (ranges whose upper end is not below the lower bound; NumPy leaves the others undefined), `C107_proportions_partial`, `C107_order`, `C107_base_same`, `C107_columns`.  The full claim is false: a prior of the wrong length is accepted and gives proportions of the wrong shape (`C107_prior_length`). *partial* (9 theorems). Priors of the wrong length are accepted and give proportions of the wrong shape (C107_prior_length).
- **C108** Simulated BLM data: constructors, columns and controls. `Verif/Sim/Columns.lean` models the constructors and `_simulate_movers`/`_simulate_stayers` with dictionaries as association lists and the generator as a state machine; the loop over firm types by an invariant.  `C108_raises`, `C108_movers_partial`, `C108_stayers_partial`, `C108_ids_partial`, `C108_dynamic_partial` (controls not called y, g or j; counts of the right shape), `C108_order_partial` (continuous controls), `C108_counts_too_few`.  The full claim is false: `C108_control_y` (a control called y replaces the wages, one called g the firm types), `C108_control_j` (firm ids replace a control called j), `C108_cat_order` (categories are drawn in order of entry), `C108_counts_too_many` (superfluous counts become movers with wage 0). *partial* (11 theorems). The order in which categorical controls are entered matters (C108_cat_order); the order of continuous ones does not. Draws are oracles, so nothing is said about the distribution of the controls.
- **C109** Choice and tolerance of the linear solver. `Verif/FE/Tolerance.lean`: the solver is an oracle that sees the keywords of its call and returns `(x, info)`; the stopping rule is the predicate `Stops`; `lam` is said without matrices (`Stiff`).  `C109_workers`, `C109_firms`, `C109_fit`, `C109_error`, `C109_stiff_exists` (compactness and connectedness), `C109_limit`, `C109_leverage_limit_partial` (all solvers but amg), `C109_sharp` (the bounds are attained), `C109_calls`, `C109_prepare`, `C109_options_written`.  The full claim is false: `C109_amg_leverage`, `C109_amg_leverage_off` (with amg the tolerance does not reach the leverages), `C109_failure_unnoticed` (`info` is dropped), `C109_settable` with `C109_large_tolerance` (only integers can be set as tolerance, and with 1 or more zero effects are accepted). *partial* (18 theorems). Partial: bounds and limits are proved; false: amg leverages ignore the tolerance, failure is not noticed, only integer tolerances can be set (the type check is that of the package paramsdict, read from fe.py:142).
- **C110** Solver tolerance with control variables. `Verif/FEControl/Tolerance.lean`: the solver is an oracle that sees the keywords of its call and the right-hand side; `Stops` is the documented contract. The specification (`fit`, `ssr`, `moments`, `sqDist`, `Stiff`, `Best`, `Attached`) speaks of rows, firms, workers, categories and the columns attached to the data, not of matrices. `C110_moments`, `C110_error`, `C110_each`, `C110_stiff_exists`, `C110_best_exists`, `C110_limit`, `C110_sharp`, `C110_failure_unnoticed`, `C110_calls`. *proved* (9 theorems). 
- **C111** Approximate leverages: refusal, spread and consistency. `Verif/FE/Probes.lean`: the step after the draws (`Setting.finish`), which both classes have verbatim, over any linear fit; the specification (`sign`, `Flips`, `probes`, `mean`, `share`) counts outcomes of the coin flips. `Verif/FEControl/Probes.lean` instantiates it for both estimators: `C111_cores`, `C111_refused`, `C111_leverage_one`, `C111_false_refusal`, `C111_bad_luck`, `C111_reported`, `C111_spread`, `C111_accuracy`, `C111_consistent`, and `C111_fe_...` without controls. Second moments of products of signs, Chebyshev's inequality and a union bound over rows; a row with leverage below one has two sign patterns that cannot both be fitted exactly, hence 1/2 per probe. *proved* (18 theorems). 
- **C112** With and without PyTorch. `Verif/BLM/Torch.lean`: arrays with their shapes and NumPy's broadcasting (`Nd`), both versions of the helpers, the two densities, the E-step, the flattening of the posterior in the update of the proportions and the columns read by the M-step; the loops `loopM` and `loopS` take the installation as an argument. `Verif/BLM/TorchProps.lean`: `C112_helpers`, `C112_helpers_single`, `C112_logsumexp`, `C112_logsumexp_all`, `C112_density`, `C112_density_sd`, `C112_density_single`, `C112_density_args`, `C112_movers_partial`, `C112_one_type_pk`, `C112_one_type_fails`, `C112_movers_false` (the full claim fails for one worker type), `C112_stayers`, `C112_return_qi`. `Verif/BLM/TorchControls.lean`: the loop of movers with control columns (`loopMC`), `C112_movers_controls_partial`, `C112_one_type_controls_pk`, `C112_one_type_controls_fails`, `C112_movers_controls_false`. Every step is shown to return an array of the right shape (or a number standing for an array with one entry) with the entries of the model in `Verif/BLM/Model.lean`; induction over iterations. *partial* (18 theorems). False with one worker type: torch's squeezed arrays make the M-step raise, with and without controls (C112_one_type_fails, C112_movers_false, C112_one_type_controls_fails, C112_movers_controls_false). For two or more worker types proved for movers and stayers with any controls.
- **C113** Labels, order of rows and units do not matter. `Verif/FE/Invariance.lean`: `Spec.Renamed` says when two panels hold the same observations in other names, order and units. Residual sums of squares of the two panels are proportional, so fits correspond by uniqueness of least squares (`C03`); leverages are sensitivities of fitted values (`C17`); traces are sums over unit outcomes (`C19`, `C20` and the new `C20_exact_trace_var_alpha`), which are covered by the plug-in theorem. `C113_effects`, `C113_residuals`, `C113_plug_in`, `C113_leverages`, `C113_sigma2`, `C113_homoskedastic`, `C113_loo`, `C113_sii_partial`, `C113_heteroskedastic_partial` (weights keep their units), `C113_weight_units` (by how much the heteroskedastic correction moves otherwise) and `C113_weight_units_matter` (a panel where it does). Row order: fe.py:427 asks bipartitepandas for mover flags with `is_sorted=True`; that package is not in /repo, and the model takes its answer to be right for every order of rows. For rows not sorted by worker the theorems rest on this assumption; everything else in the modelled part works row by row or by group. *partial* (11 theorems). For rows that are not sorted by worker, rests on bipartitepandas.get_worker_m(is_sorted=True) (fe.py:427) giving the right mover flags; that package is not modelled.
- **C114** BLM estimates do not depend on numbering, order, direction of time or units. `Verif/BLM/Invariance.lean`: `Spec.Renaming` with relations `SameData`, `SameMeans`, `SameSds`, `SameProps`, `SameState`, `SameOutcome`. Posteriors are equal, likelihoods differ by `log a` times the average weight; the constrained means correspond because the weighted sum of squares has a unique minimiser over a convex set (`wsse_unique`); variances by their closed form; proportions by `C32_movers`; the loop by induction on the iterations left (`C114_movers`). `_min_firm_type` is covered by `C114_lowest_firm_type` (any numbering, no ties) and `C114_lowest_firm_type_ties`, which give `C114_movers_lowest_partial`. Stayers: `C114_stayers` and the exception `C114_stayers_numbering`. `Verif/BLM/InvarianceControls.lean`: the same with control columns of the four kinds whose categories may be renamed too (`Spec.Renaming.SameCol`); every quadratic programme has a unique solution over a convex set (`qp_unique`), hence corresponding ones (`qp_ren`); `C114_movers_controls`, `C114_movers_controls_lowest_partial`, `C114_stayers_controls`. What does depend on how the data are written down: the unit of a continuous control (`C114_control_units`) and the names of control columns, which decide the order of the updates (`C114_control_names`). Partial: when the lowest firm type is computed, firm types are renumbered only if there are no ties. *partial* (12 theorems). Proved with and without control variables, for movers and stayers (C114_movers, C114_movers_controls, C114_stayers, C114_stayers_controls), with categories of controls renamed as well. Exceptions proved: a highest-numbered firm type without stayers makes fit_stayers raise; the unit of a continuous control matters; the names of control columns matter. Missing: when the lowest firm type is computed by _min_firm_type (not given), renumbering firm types is covered only without ties.
- **C115** Borovickova-Shimer estimates do not depend on names, order, sides or units. `Verif/BS/Invariance.lean`: `Spec.SameObs`, `Spec.SameRes`, `Spec.swap`; with groups as sets of rows, group sums are moved along the permutations (`fit_relabel`) and the units factored out of each path (`units_sets`, `sides_sets`). `Verif/BS/Rows.lean` models what the code does with rows: `np.split` at the first row of each id, multiplied by position with arrays of `groupby(sort=False)` (`fitRows`). `fitRows_eq`: the two models agree if rows are sorted by worker; the code sorts by firm itself. Hence `C115_units_partial` and `C115_sides` for panels sorted by worker. Partial because the claim is false of the code in two cases: rows not sorted by worker (`C115_unsorted_wrong`) and an added constant with weights (`C115_weighted_shift_wrong`). `C115_var_y_weight_units`: the weighted `var(y)` is multiplied by c squared. C29 and C65 are about groups as sets, so they too concern panels sorted by worker. *partial* (5 theorems). Proved for panels sorted by worker. The full statement is false of the code for rows that are not sorted by worker (C115_unsorted_wrong) and, with weights, for an added constant (C115_weighted_shift_wrong).
- **C116** Collapsing a panel does not change the fixed effects. `Verif/FE/Collapse.lean`: `Spec.Collapsed` relates a panel to its collapsed version. Their residual sums of squares differ by a constant, so by uniqueness of least squares (`C16_unique`) the effects are the same (`C116_effects`); weighted covariances are sums over rows that regroup (`C116_plug_in`); leverages are sensitivities of fitted values (`C116_leverage`); the normal equations and the quadratic forms are the same (`C116_exact_trace`, `C116_draw_trace`). The collapse itself is done by bipartitepandas and is not modelled. *proved* (5 theorems). 
- **C117** Names, order of rows and units in the CRE estimator. `Verif/CRE/Invariance.lean`: `Spec.Renamed` says when two data sets hold the same rows in other names, order and units. Cluster effects correspond by uniqueness of the least-squares fit (`C117_cluster_effects`); the moments are sample covariances over sets of rows described in the data (`C26`), so the within parameters scale (`C117_within`) and so do all results (`C117_results`). `C117_posterior_partial` covers the posterior variance if every firm has a mover and one cluster; `C117_posterior_wrong` shows that otherwise it depends on which cluster comes last, because a firm without movers gets prior mean zero. *partial* (5 theorems). Posterior variance: firms without movers get the effect of the last-numbered cluster, so renaming clusters changes it (C117_posterior_wrong). Everything else is proved.
- **C118** With no controls the estimator with controls is the FE estimator. `Verif/FEControl/NoControls.lean`: `Spec.noControls` hands a panel to the estimator with controls, `Spec.Request` pairs the ways of asking for a component in the two estimators. The stacked solution of the FE estimator solves the normal equations of the other (`multAAinv_spec`), which are nonsingular on connected panels, so the two solvers return the same numbers; `C118_effects`, `C118_residuals`, `C118_plug_in`, `C118_trace_sigma2`, `C118_draws`, `C118_corrected` and `C118_leverages` follow function by function. Draws are arguments: one estimator draws one vector, the other two, and the statement is about equal draws. *proved* (7 theorems). 
- **C119** With controls: labels, order of rows, order of controls and units do not matter. `Verif/FEControl/Invariance.lean`: `Spec.Renamed` relates two data sets by their rows, firms, workers, names, categories and units. Effects are carried from one data set to the other (`Match`); the carried fit is orthogonal to the new design, so by identification it is the new estimate. Outcomes that are 1 in one row and 0 elsewhere then give leverages, sensitivities of coefficients and traces. Clustered standard errors do depend on which firm or category is first (`C119_first_matters`), all standard errors on the units of weights (`C119_standard_partial`, `C119_clustered_partial`), and the refusal of upper_bound on the units of weights (`C119_upper_bound_units`), so those parts are proved under the missing conditions. *partial* (15 theorems). Proved for effects, coefficients, residuals, plug-in components, leverages, error variances and expected corrected components. Partial: clustered standard errors keep their value only if the first category stays first, all standard errors depend on the units of weights, and so does upper_bound (C119_first_matters, C119_standard_partial, C119_upper_bound_units).
- **C120** A BLM fit that raises, or that is only asked for posterior probabilities, leaves the model as it was. `Verif/BLM/Atomic.lean` and `Verif/BLMDyn/Atomic.lean`: a call is a function from the attributes before it to what it returns or raises together with the attributes after it; the points where the code assigns to an attribute, or writes into an array that an attribute refers to, are followed one by one. `pk0` is assigned before the loop, so the full claim is false for movers (`C120_pk0_reordered`); the stayers of the dynamic model are estimated in place, which cannot be seen without controls (`C120_dynamic_stayers`) and can with them (`C120_dynamic_half_done`). `Verif/BLMDyn/StayLoop.lean` has what the loop with controls computes (C95). *partial* (17 theorems). Proved without exception for fit_stayers of the static model (C120_stayers) and of the dynamic one without controls (C120_dynamic_stayers), and for fit_movers when the worker types are in order, pk0 is the same for all types, or the lowest firm type is forced (C120_movers_unchanged). The full claim is false: pk0 is rearranged (C120_pk0_reordered, hence C120_movers_partial and C120_dynamic_movers_partial), posterior columns are in sorted order (C120_posteriors), and stayers of the dynamic model with categorical controls can be left half done (C120_dynamic_half_done, hence C120_dynamic_stayers_partial).
- **C121** Estimates of the dynamic model: order, numbering and units. `Verif/BLMDyn/Invariance.lean` on the loops of `Verif/BLMDyn/EM.lean`. The specification is a rewriting (`Spec.Rewriting`) and what it means for data, parameters, states and outcomes to be the same. Uniqueness of the minimiser of a positive definite quadratic over a convex set makes the two solvers' answers correspond (`qp_ren`); induction over iterations: `C121_movers`, `C121_stayers`. `C121_min_type`: the stopping rule's lowest firm type is the same when firm types keep their numbers. `C121_units`, `C121_constant`: what the ridge `d_X_diag - 1` does. `C121_movers_solvers`, `C121_stayers_solvers`: such solvers and constraints exist. `Verif/BLMDyn/InvarianceControls.lean`: the loop with categorical controls (`C121_movers_controls`), with constraints on means that depend on the lowest firm type; `C121_package_constraints`, `C121_control_constraints`: the package's constraints are as it asks; `C121_worker_order`: not when worker types are exchanged. `Verif/BLMDyn/InvarianceStay.lean`: `C121_stayers_controls_numbering`, `C121_stayers_controls_fails`. *proved* (13 theorems). 
- **C122** Sorkin values settle when the flows mix, and depend on the moves only. `Verif/Sorkin/Converge.lean`. The pass is the transition matrix acting on moves; a power of it with positive entries contracts the distance between distributions, so the guesses are Cauchy; the limit balances the flows. An early stop with a small threshold is a stop at the limit. Invariance by induction over the passes. *proved* (8 theorems). 
- **C123** Interacted estimates do not depend on order, firm numbers or units; the normalised firm. `Verif/Interacted/Invariance.lean`. Coefficients are read by firm; the change acts on them linearly and scales every residual, hence the bilinear forms of Wx, Wz and the iv normal matrix; definiteness, determinants and eigenvectors are transported. A three-row data set shows that norm_fid matters for iv. *proved* (5 theorems). liml_1 needs that only one direction belongs to the smallest eigenvalue (otherwise numpy's choice of eigenvector decides). That norm_fid matters for iv is C123_iv_norm_matters.
- **C124** One worker type gives statistics by firm type; worker types that start alike stay alike. `Verif/BLM/OneType.lean`. With one type every posterior is one, so the M-step of C34 has the same value wherever it starts and is a fixed point from then on. Types that start alike: the estimates are invariant under exchanging them (C114), hence equal. *proved* (3 theorems). For the NumPy branch; with PyTorch installed one worker type makes the M-step raise (C112_one_type_fails).
- **C125** A leverage of one means that the data are not leave-one-observation-out connected. `Verif/FE/Bridges.lean`. A diagonal entry of a hat matrix is one exactly if some direction is seen by that row only; for indicators of workers and firms such a direction is a cut of the network. With controls the direction can be one of a control, and the last claim is refuted by an example. *partial* (6 theorems). exact leverages: an observation is flagged exactly when its firm and worker are joined by no other path, proved in both directions; approximate leverages: one direction, the other fails by chance of the draws (C111); with controls the message blames connectedness although a control can be the cause: C125_controls_blamed
- **C126** Firm effects are identified by movers: workers who never move can be dropped. `Verif/FE/Stayers.lean`. The sum of squares splits into that of the rows kept and that of the workers dropped, whose effects can absorb any change of their firm effect; then C16 (uniqueness) and, for leverages, C17 (sensitivity). *proved* (4 theorems). proved in full for any set of workers seen at one firm only
- **C127** FE estimates are linear in outcomes, and controls can be taken out first. `Verif/FEControl/Net.lean`. Linearity from the closed form of both estimators; taking out controls from least squares: with the controls held at their estimates, the other coefficients still minimise, and C16 says the minimiser is unique. *proved* (4 theorems). proved in full, without and with control variables
- **C128** On data whose firms are not connected, everything within a connected part is still determined. `Verif/FE/Components.lean`. Two least-squares fits have the same fitted values by strict convexity of the sum of squares in them; differences follow along paths of movers; the sum of squares splits over the part and the rest. Negative part by a witness with two solvers. *proved* (3 theorems). proved for every solution of the normal equations a solver can return; C128_between_parts shows what is not determined
- **C129** Which way the bias corrections go, and how corrected components add up. `Verif/FE/Direction.lean`, `Verif/FEControl/Direction.lean`. Traces are sums over observations of squares (C19); a covariance with worker effects uses only averages by worker, so the trace of the covariance is minus a variance trace; bilinearity of one draw; C21 for averages over probes; a witness for one draw. *proved* (9 theorems). signs and accounting proved for every data set and draw; C129_adds_up_fails shows that one draw does not give an exact sum; C129_alpha_and_cov: with exact traces the corrections of var(alpha) and cov(psi, alpha) cancel, a consequence of fe.py:1280
- **C130** Repeating every observation leaves BLM estimates unchanged, but a weight is not a count. `Verif/BLM/Repeat.lean`, `Verif/BLM/RepeatControls.lean`. A map from the rows of the repeated data to the rows of the data with fibres of equal size; every group sum is multiplied by that size; quadratic programs multiplied by a positive number have the same unique solution; induction on iterations. A witness for weights: one mover, two types. *proved* (5 theorems). Movers without controls for right solvers of convex constraints; with controls for solvers whose answer does not change when the objective is multiplied by a positive number (C130_right_solvers says why); stayers with and without controls. C130_weight_is_not_count: weights multiply log densities of wages but not log proportions.
- **C131** Repeating every observation in the dynamic BLM model: only the ridge notices. `Verif/BLMDyn/Repeat.lean`. A map from the rows of the repeated data to the rows of the data with fibres of equal size; every sum over rows is multiplied by that size; the ridge makes the quadratic programs strictly convex, so a solver finds the same point; induction on iterations. Witness for the unscaled ridge: one stayer twice. *proved* (3 theorems). Without controls. The ridge is an absolute number, so with unchanged settings repeating the data changes the estimates (C131_same_ridge).
- **C132** Worker types of the dynamic BLM model that start alike stay alike. `Verif/BLMDyn/Twins.lean`. Exchanging the two types rewrites the starting state into itself, so by the invariance theorem C121 it rewrites the result into itself. A monotonicity constraint as witness that the condition on constraints is needed. *proved* (4 theorems). Without controls.
- **C133** The BLM fits end by themselves. `Verif/BLM/Ends.lean`. Bound the log density by the bound on the variances and the log sum by the sum of the proportions; add the monotonicity step of C33 and the stopping rule of C68 in one induction over the loop; a second induction shows that a loop that has stopped ignores extra iterations. *proved* (7 theorems). 
- **C134** BLM fits stay put exactly at critical points of the likelihood. `Verif/BLM/Stationary.lean`. The log likelihood is written out as a specification and differentiated along a line; the derivative splits into means, standard deviations and proportions, each handled by what the M-step solves (C32, C34). The converse takes the gradient itself as direction. For stayers, log x <= x - 1 bounds the gain of any other proportions by the ratio of the next iterate to the present one. *proved* (7 theorems). 
- **C135** fit_stayers approaches the highest likelihood at a known rate. `Verif/BLM/Rate.lean`. One iteration: log x <= x - 1 bounds the distance to the likelihood of any other proportions by the posterior-weighted growth of the logs of the proportions. These growths telescope over the loop and are at most K in total; the likelihood never falls (C33). *proved* (3 theorems). 
- **C136** With the Dirichlet prior a penalised likelihood never falls. `Verif/BLM/Prior.lean`. The proportions maximise the posterior-weighted logs plus the logs of the prior (Gibbs' inequality with the prior's mass added); the means and standard deviations improve the weighted squares as in C33; the sum bounds the penalised likelihood from below. Continuing the loop from a returned state gives monotonicity in the number of iterations. *proved* (4 theorems). 
- **C137** BLM estimates stay within the data. `Verif/BLM/Range.lean`. Clipping the means to the range of the wages strictly lowers the weighted squares if it changes anything, so the constrained minimum is in range; the variance is a weighted mean of squares (Popoviciu's inequality for free means); proportions are weighted means of posteriors plus the prior. The first iteration never stops, so the returned values come from an update. *proved* (5 theorems). 
- **C138** The proportions of fit_stayers converge, with the default prior to one limit. `Verif/BLM/Converge.lean`. The simplex is compact, so a limit point exists; by C135/C136 it has the highest penalised likelihood, hence it reproduces itself under the update; then the divergence from it never rises along the run (the inequality behind C135), and tends to zero along a subsequence, so along the whole sequence; it bounds the distance of square roots. With a prior above one the penalised likelihood is strictly concave. *proved* (3 theorems). Movers' fits are not covered: their likelihood has several local maxima.
- **C139** The movers' EM loop settles down, at critical points of the penalised likelihood. `Verif/BLM/Settle.lean`, `Verif/BLM/Critical.lean`. The gain of an EM step exceeds the divergence between old and new posteriors, which bounds the distance of their square roots; the penalised likelihood is bounded (C133), so these are summable. By C34 and C32 the next estimates are continuous functions of the posteriors, which by C137 stay in a compact box away from zero, so their changes tend to zero too; limits along subsequences are fixed points by continuity. The first-order conditions of C134 are redone with the prior. *proved* (7 theorems). 
- **C140** Approximate traces: their spread, the reported standard deviation, and what more draws buy. `Verif/FEControl/TraceSpread.lean`. Every draw is a quadratic form in the probe (C21, C85, C86); moments of products of four signs by flipping one entry give mean and mean squared error of one draw; independence (C111 lemmas) gives the average of N, the standard deviation and Chebyshev's bound. *proved* (10 theorems). 
- **C141** FE estimates are unbiased, the most precise linear ones, and more data make firm effects no less precise. `Verif/FEControl/Efficient.lean`. By C15/C16 the estimates are the weighted least-squares solution; the coefficients of a competitor differ from those of the fit by a vector that is orthogonal to the design, so its variance adds up (Gauss-Markov). The estimate from part of the data is a competitor in the larger data. *proved* (6 theorems). 
- **C142** Reported standard errors of coefficients are too small on average. `Verif/FEControl/StdErr.lean`. The coefficient is a fixed sum of outcomes and the squared standard error is the mean squared residual times the sum of its squared coefficients (C62); the expectation of the mean squared residual is (n - k) / n times the error variance because the hat matrix has trace k. *proved* (3 theorems). 
- **C143** Fits of the dynamic model that end by themselves. `Verif/BLMDyn/Ends.lean`. Recorded likelihoods never fall (C77), every step but the last gains the threshold (C78), and a log density of four wages with variances at least `lb` is at most four times `-log(2 pi lb) / 2`. *proved* (3 theorems). 
- **C144** Estimated differences between firms become exact as the number of workers moving between them grows. `Verif/FEControl/ManyMovers.lean`. The average difference of the movers' outcomes is unbiased for the difference and has variance at most 2 s2 / (w K); C141 says the estimate is at least as precise. Along a path errors add up (Cauchy-Schwarz); Chebyshev's inequality. *proved* (4 theorems). 
- **C145** Effects of workers and firms with few observations stay imprecise however large the data. `Verif/FEControl/FewObs.lean`. The coefficients of an unbiased estimate sum to the combination's coefficient over each worker's (firm's) observations; Cauchy-Schwarz within workers (firms). *proved* (5 theorems). 
- **C146** By how much plug-in variances of firm and worker effects are too large on average, and that their covariance is not. `Verif/FEControl/LimitedMobility.lean`. A weighted variance is the weighted average of squared differences between pairs; differences are estimated without bias (C141) and with errors of at least s2 over the total weight of each side (C145); the sum over pairs is counted exactly. For the sum of both: trace and row sums of the hat matrix. The covariance by C23. *proved* (7 theorems). 
- **C147** The bias of the plug-in variance of firm effects vanishes as mobility between firms grows. `Verif/FEControl/Mobility.lean`. The bias is the weighted average over pairs of observations of half the mean squared error of the estimated difference between their firms; C144 bounds each. *proved* (3 theorems). 
- **C148** The plug-in covariance loses what the plug-in variances gain, up to a known term. `Verif/FEControl/Balance.lean`. The covariance of estimated firm effects with fitted values: the firm part of the fit is left alone by the hat matrix, has trace the number of firms less one and sends constants to zero. Then C146 and C147. *proved* (2 theorems). 

## Defects of the code found on the way

Each is a theorem: a concrete input (or a whole family) on which the English claim is false of the model. Names in brackets.

**Utilities and constraints**
- weighted_quantile depends on the order of rows with tied values (C03_order_dependence_on_ties).
- melt labels values with the wrong indices (C57_melt_mislabels).
- Stationary with nwt < nl constrains other entries (C12_some_types_false). A repeated period changes MonotonicMean (C09_repeated_period). A non-existent lowest type constrains another effect (C11). check_feasible raises for two periods; pad on an empty set breaks (C58).
- The constraints a BLM model builds depend on the order of control columns (C59_depends_on_column_order).

**FE estimators**
- Approximate leverages can refuse good data by bad luck and then blame the connectedness of the data: with all leverages 1/2 the probability is 1/2^ndraw (C111_bad_luck, C111_fe_bad_luck). If only movers' leverages are needed and there is no mover, NumPy's error about an empty array is what the user sees (C111_refused).
- Sii subtracts the overall mean of y before multiplying by the residual: biased under heteroskedasticity (C18_heteroskedastic_biased, C20_heteroskedastic_biased).
- The exact homoskedastic trace of var(alpha) broadcasts a vector over a matrix (C19_var_alpha_biased).
- The exact heteroskedastic trace divides by the weights twice (C20_weighted_biased) and has a spurious term for cov(psi, alpha) (C20_exact_trace_cov) and for var(alpha) (C20_exact_trace_var_alpha). For the same reason heteroskedastically corrected components depend on the units of the weights: doubling every weight changes them although the plug-in components stay the same (C113_weight_units, C113_weight_units_matter).
- Hutch++ fails with more draws than rows (C21_sigma2_hutchPP_refused).
- upper_bound uses 1/T where weights need w/T; a stayer in one row gets variance 0 (C60).
- The JLA factor has a wrong sign and doubles the cross term (C66_factor).
- Unsupported moments are found after the linear system has been solved (C56_fe_late, C56_control_late); a leverage file with exact_trace_he raises AttributeError; empty Q lists raise UnboundLocalError (C56_fe_outcome).
- Matrices stay behind with he and statsonly or feonly (C84_leftovers). With an output file stored results become strings (C84_refit_results).
- FE with controls: the first category of a cluster variable is not clustered (C25_first_category), one firm gives standard error 0 (C25_one_firm), the sandwich lacks the weights (C25_sandwich), two-way clustering may be indefinite (C25_two_way_negative), weighted standard errors are off (C62_weighted), a control named psi breaks the layout (C24_name_clash).
- Preconditioners: Jacobi replaces diagonal entries up to 1e-8 by 1 (C52_jacobi_small); the default V-cycle is indefinite with a categorical control (C52_controls_vcycle_indefinite); ichol misreads a column without stored diagonal (C83_missing_diagonal).
- Results are stored under names built from column names: a control called eps overwrites the residual variance var(eps)_fe (C101_eps_clash), a categorical control called firms the number of firms (C101_counts_clash), and different requests over columns with spaces or commas can share a name, of which only the last is estimated (C101_names_clash). With an output file every entry of res becomes text, so callers that compute with res raise TypeError (C101_saved).
- solver_tol must be an integer >= 0 (fe.py:142, fecontrol.py:163): the only values that can be set are 0 and at least 1, and from 1 on all-zero firm effects satisfy the stopping rule (C109_settable, C109_large_tolerance). The solver's convergence flag is dropped (C109_failure_unnoticed). With amg the leverages are solved with pyamg's default tolerance, whatever solver_tol (C109_amg_leverage_off). The preconditioner is prepared for qmr, with its transpose, and never passed (C109_calls).

**CRE, Borovickova-Shimer, Sorkin**
- The list of averages for stayers (`between_params['Em']`) has one entry per cluster with stayers, so a cluster without stayers shifts all later entries (C106_stayer_table_shifted).
- cov_AsPsi1 is not halved (C27_stayer_cov_wrong). The posterior variance mixes ddof 0 and 1 and firms with stayers only get prior mean 0 (C64).
- Weighted var(y) is the variance of w*y; the weighted alternative estimator reports -c^2/2 for constant wages (C65). The squared overall mean carries noise, repeated matches add noise to the covariance (C29).
- Sorkin's iteration may oscillate for ever (C30_not_convergent); firm effects are shifted by one firm in the attrition comparison (C67).

**Static BLM**
- Whether fit_stayers returns or raises when some firm type has no stayer depends on the number that firm type has (C114_stayers_numbering).
- The variance attributed to a continuous control is the coefficient of squared residuals on the value of the control, used as a variance that does not vary with it: measuring the control in another unit changes it and so all estimates (C114_control_units). Control columns are sorted by name and updated one after the other, so renaming columns changes the estimates after any given number of iterations (C114_control_names).
- An unobserved firm type of stayers silently gets nan (C32_stayers_silent_nan). The recorded likelihood may fall with d_prior > 1 (C33_prior_lowers). The M-step raises if the top firm type is unobserved (C34_raises).
- Reallocation and connectedness pair a flow with the opposite flow's proportions (C37_wrong, C50_wrong); all=True is ignored (C50_all_ignored); separate reallocation of the second or all periods raises (C37_separate_raises).
- Bootstrap and variance decomposition do not restore the data when something raises (C39). fit_A always raises, a raise loses settings, cstr_uncstr ignores the update flags (C40).
- Weighted bootstrap draws have variance S^2/w^2 (C72_weighted_variance).
- With PyTorch installed and one worker type (`nl=1` is allowed), `fit_movers` raises IndexError whenever means or standard deviations are updated: `exp_` drops the dimension of length one and `qi[:, l]` needs two (C112_one_type_fails, C112_movers_false); `return_qi` then returns one dimension (C112_return_qi). `logsumexp(a)` without `axis` always raises with PyTorch (C112_logsumexp_all).

**Interacted BLM**
- Weighted iv is wrong (C41_iv_weighted_wrong), stationary_a restricts a/b (C41_stationary_a), exactly noiseless data raises in liml_1, worker_ids raises. Weights that differ within a worker break the fixed point (C69_weighted_wrong). Firms without stayers shift the mean effects (C70_misaligned). Weighted HFUL multiplies equations by movers' weights (C56_interacted_hful).

**Simulators**
- Second-period firms are drawn in group order and stored in row order (C44_second_wrong). stationary_firm_type_variation raises or is wrong (C45_firm_variation_*). BS: perfect correlation passes the check (C51_perfect_correlation), columns are scaled (C82_columns_scaled).
- Dynamic: with stationary_A switching one effect off zeroes all periods (C46_stationary_zeroes) or the simulation raises; controls' standard deviations enter unsquared (C73_controls_wrong).
- Static and dynamic: a control called y or g silently replaces wages or firm types and one called j is replaced by firm ids (C108_control_y, C108_control_j). Categories are drawn in order of entry although effects are drawn in alphabetical order, so the order of entry changes the data (C108_cat_order). A matrix of counts with too many entries is accepted and gives movers with wage 0 (C108_counts_too_many).

**Dynamic BLM**
- Three of ten moments of rho_init are wrong (C53_wrong_rows). `_normalize` raises KeyError in most configurations (C54_raises). Continuous controls raise in the likelihood (C73_continuous_raise), any control raises in the bootstrap (C74_controls_raise), a categorical control raises in the constructor's switches (C76_controls_raise).
- M-steps lower the likelihood: means weighted by 1/sd (C77_movers_means_lower), variances with wrong signs and powers (C77_stayers_variances*, C77_movers_variances_lower), persistence (C55_likelihood_can_fall). threshold_stayers is never read (C78_threshold_ignored). The prior is missing from the first recorded likelihood (C77_prior_lower).
- A control whose number of categories differs from the number of firm types makes every update raise ValueError, since the order of its parameters is built with nk (C95_order_raises, C95_movers_usable, C95_stayers_raise); one that interacts with worker types raises IndexError for movers (C95_movers_usable). For stayers every control's new effects are cut from the solution of the firm types' regression (blm_dynamic.py:3427), so they are the firm types' effects (C95_stayers_overwritten) and are counted twice (C95_stayers_twice); if that regression has no solution the update raises AttributeError (C95_stayers_no_solution). Each part's variances are fitted to the whole squared residuals (C95_variance_counted_twice).
- force_min_firm_type, and every cycle of lowest firm types that is found, raise TypeError because the constructor is called without rhos (C96_dynamic_forced, C96_dynamic_cycle).
- Nothing makes the 'b' standard deviations of a control that interacts with worker type equal over worker types (C91_control_sds_b); a user's constraint on means makes either the movers' or the stayers' estimation step raise, since the numbers of periods differ (C91_user_constraint_fits_one).

**Attrition, Monte Carlo**
- A raise loses the user's cleaning parameters (C47_parameters_lost). Decreasing attrition flips a dictionary and raises (C48_decreasing_raises). Plots without the line raise (C79_no_line_raises).

**Corrections with controls**
- As without controls the leave-one-out variances are biased unless error variances are inversely proportional to the weights (C86_heteroskedastic_biased). Under weighted upper_bound a stayer's leverage ignores the controls, and the result is not an upper bound (C86_not_upper_bound).
- Clustered standard errors depend on which firm or category is numbered first: swapping two firm names changes the squared error from 5/9 to 2/9 (C119_first_matters). All standard errors are divided by c when the weights are multiplied by c (C119_standard_partial, C119_clustered_partial), and with weights the refusal of stayers='upper_bound' depends on their units (C119_upper_bound_units).

**BLM with controls**
- A prior for type proportions of the wrong length is accepted; the proportions get the wrong shape (C107_prior_length).
- Forcing the lowest firm type leaves pk0 in the old order of types (C96_pk0_mismatch); if a fit raises after a cycle was found, force_min_firm_type stays switched on (C96_setting_left).
- The variance half of the M-step gives the whole squared residual to the base variances and again to every control column, so with k categorical interacted controls the fitted total variance is at least k+1 times the residual variance (C88_double_count), and an iteration can lower the likelihood (C88_likelihood_falls). Variances of a continuous control are the absolute value of a regression of squared residuals on the control without constant (C88_slope_variance). update_A without update_S raises UnboundLocalError (C87_update_a_alone); a missing top category raises (C87_missing_category).

**Command line**
- Options that are numbers are not converted: every number of draws or cores, --ndp, --wo_btw and --seed make every run raise, whatever their text and even if they belong to an estimator that is not run (C92_options_that_raise). A measure with an unknown name is silently replaced by the one before it (C92_unknown_measure).

**Diagnostics**
- plot_extendedeventstudy uses periods_pre for both sides of the move, so every call with periods_pre ≠ periods_post raises ValueError (C94_unequal_windows); data without clusters, documented to give a single plot, always raises (C94_unclustered), and so does data with a single firm type (C94_single_type).

**Dynamic wrappers**
- The variance decomposition of the dynamic model restores `j4` of stayers twice and `j1` never: on every normal return with the default firm_clusters_as_ids=True the stayers' first firm has been replaced by its type (C97_stayers_firms_lost). The same option replaces the firms of periods 1 and 4 only, so every regression mixes firm types and firm identifiers (C97_ids_mixed).
- fit_A, fit_S and fit_pk of the dynamic model also change the persistence parameters (C97_persistence_changed); fit_pk raises and leaves the settings changed when some pair of firm types has no mover (C97_fit_pk_raises).
- Estimators (both models): a run without connectedness leaves zeros in liks_high, liks_low and the connectedness arrays, which plot_liks_connectedness draws as points at the origin (C98_zeros_stored, C98_plot_partial). When no run has a connectedness, or with n_best=0, fit raises IndexError after it has stored the arrays, and the plot then raises ValueError because the model left is from an earlier call (C98_fails, C98_plot_stale). With jitter=True the plot raises whenever n_best=1 or n_best=n_init (C98_plot_jitter). With n_best > 1 more starting values can lower the likelihood of the model kept (C98_more_starts_worse).
- Plots of type proportions (both models and bootstraps): `pk1` is reshaped to `(nk, nk, nl)` as if its rows were ordered by the first class, but they are ordered by `g1 + nk * g2`; every flow is weighted with the type probabilities of the opposite flow. With symmetric flows the bars of the first and the second period are exchanged (C99_periods_swapped); in C99_types_wrong all who leave a class are of one type and the plot shows only the other. A class without movers makes the plots raise IndexError or ValueError, or, if all movers start from one class, draws bars for classes where no mover is (C99_class_without_movers, C99_bars_for_nobody); the bootstrap then refuses to draw stayers as well (C99_bootstrap_stayers_refused). A dynamic model tests NNm instead of NNs before it draws stayers (C99_dynamic_stayers_refused). The bootstrap's plot of log earnings passes negative error bars to Matplotlib, which raises, when outliers move the mean outside the percentiles; that is possible exactly from 41 models on (C99_error_bars_raise, C99_error_bars_partial).
- Interacted estimator, other methods: liml_2 with weights is wrong, because weights enter its two sides differently (C100_liml2_weighted_wrong); hful with its default Fuller constant 1 does not solve its own equations (C100_hful_default_wrong), with the constant 0 it is still wrong when firm pairs have different numbers of movers (C100_hful_pairs_wrong) and when weights differ (C100_hful_weighted_wrong), and its weights index data rows while they multiply coefficient rows; profiling is wrong when first wages correlate with the noise (C100_profiling_wrong) and always raises with two firms and movers only (C100_profiling_two_firms_raises); exactly noiseless data raise in hful (C100_hful_noiseless_raises); coarse worker instruments raise UnboundLocalError.

**Attrition and Monte Carlo**
- SorkinAttrition pairs the value of every firm with the effect of the next one, because the reference firm's zero is appended at the end of the effects and not put first: with two firms the reported correlation has the wrong sign (C102_two_firms, C102_run). After a failed draw the object keeps cleaning parameters that no longer drop single stayers (C102_dropping_lost).
- Attrition with increasing fractions clusters with cleaning parameters that still ask for the connected set (C103_cluster_stale).
- Attrition.boxplots raises TypeError if exactly one estimator besides FE-HE is asked for and ValueError if none is (C105_boxplots_fail).
- MonteCarlo compares estimates on the cleaned data with true moments of all simulated observations (C104_true_other_sample).
- With weights, adding a constant to every outcome changes the estimated variances of the Borovickova-Shimer estimator (C115_weighted_shift_wrong); the weighted var(y) is multiplied by c squared when weights are multiplied by c (C115_var_y_weight_units).
- BSEstimator.fit neither sorts rows by worker nor checks that they are sorted: on other orders np.split cuts wrong groups and var(lambda) is wrong without an exception (C115_unsorted_wrong).
- For stayers of the dynamic model the design of a categorical control takes the categories of the second period for the third one (CC1 for 3s, blm_dynamic.py:3227): a category that workers have only in the third period gets the lowest standard deviation allowed, whatever their wages (C95_stayers_third_period).
- With a firm without movers, the posterior variance of CREEstimator depends on which cluster has the largest label: such a firm gets prior mean zero, the normalised effect of that cluster (C117_posterior_wrong).
- A fit of movers that raises, and one that only returns posterior probabilities, leaves pk0 with its worker types rearranged while all other parameters keep their order: stayers' proportions then belong to other types (C120_pk0_reordered; static model, and the dynamic one assigns it at the same points). The returned posterior probabilities have their columns in the sorted order, not in the order of the model's types (C120_posteriors).
- Dynamic model with categorical controls none of which varies over time and interacts: fit_movers raises KeyError after the whole estimation and loses its results (C120_dynamic_movers_lost); fit_stayers raises it too and leaves the new A, S and control effects together with the old R32s, pk0 and likelihoods (C120_dynamic_half_done, C120_dynamic_half_done_instance).
- Dynamic model: `d_X_diag` adds a fixed amount to the diagonal of the normal equations, whose entries are posterior weights divided by standard deviations. Estimated means therefore shrink towards zero by an amount that depends on the unit of wages, and adding a constant to wages does not add it to the estimated means (C121_units, C121_constant). With the default 1 + 1e-10 this is tiny.
- Dynamic model, stayers with a categorical control: since the control's effects are overwritten by those of the firm types with the same numbers, renumbering the categories of the control changes its estimated effects (`C121_stayers_controls_numbering`, `C121_stayers_controls_fails`).
- FEControlEstimator: with controls an observation can have leverage one although every observation can be left out of the network of workers and firms, for example the only one of its category. The error then says that the data are not leave-one-observation-out connected and asks for a cleaning step that changes nothing (C125_controls_blamed).
- InteractedBLMEstimator, method iv: the estimates depend on which firm is normalised (`norm_fid`) when the model is overidentified (C123_iv_norm_matters).
- FEEstimator, exact traces: since line 1280 of fe.py puts the inverse worker weights in whole columns, what the homoskedastic correction takes off `var(alpha)` is exactly what it puts on `cov(psi, alpha)`, so that their sum is never corrected (C129_alpha_and_cov).
- FEEstimator, approximate traces: the covariance uses one of two approximations of the same trace and `var(psi + alpha)` uses both, so that corrected components do not add up in a given run, only on average over draws (C129_adds_up_fails).
- BLMModel with weights: weights multiply the log density of wages but not the log proportion of the worker's type, so a mover with weight two differs from two movers with weight one and the scale of weights changes the estimates (C130_weight_is_not_count).
- DynamicBLMModel: `d_X_diag - 1` is added to the diagonals of the regressions as an absolute number, so writing every observation down twice changes the estimates (C131_same_ridge).
- FEControlEstimator: standard errors use the mean squared residual without degrees-of-freedom correction, although `k` counts every worker and firm effect. Their squares average `(n - k) / n` of the mean squared error, less than half of it with two rows per worker (C142_average, C142_too_small); clustering by worker is too small on average too (C142_clustered).

## Wrong programs

`seeded/LOG.jsonl` has 1013 edits of the model. An entry with no failed theorem and no tightened theorem is an edit under which every stated claim stays true or that the log says is not yet covered.
