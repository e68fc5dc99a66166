{"id": "C01", "title": "Mixture weights are normalised whatever the caller passes", "statement": "After a mixture is built, or set_weights is called, with weights of which at least one is a positive finite number and none is +inf, the stored weights are all >= 0 and sum to exactly 1; every entry that was NaN, zero or negative (including -inf) is stored as 0, and the positive entries keep their mutual ratios.", "quantifier": "every number of components, every vector of weights mixing NaN, -inf, negative, zero and positive finite entries", "why_tests_cant": "Unit tests fix a few weight vectors; the claim is about every length and every placement of invalid entries.", "anchors": ["ais_benchmarks/distributions/mixture/CMixtureModel.py::CMixtureModel.__init__", "ais_benchmarks/distributions/mixture/CMixtureModel.py::CMixtureModel.set_weights"]}
{"id": "C02", "title": "A mixture whose weights are all invalid falls back to equal weights", "statement": "When set_weights is given weights with no positive entry it announces 'Using equal weights for all components'; afterwards every component has weight 1/N, so the mixture is still a density and every component can be sampled.", "quantifier": "every number of components and every weight vector without a positive entry", "why_tests_cant": "The failure is silent (a zero density), so a test that only checks for absence of exceptions passes; the claim is over all invalid vectors.", "anchors": ["ais_benchmarks/distributions/mixture/CMixtureModel.py::CMixtureModel.set_weights", "ais_benchmarks/distributions/mixture/CMixtureModel.py::CMixtureModel.sample"]}
{"id": "C03", "title": "Mixture prob and log_prob agree and equal the weighted sum of the components", "statement": "For every batch of points, prob returns one value per point equal to the weight-averaged component density at that point, log_prob returns its logarithm (-inf exactly where prob is 0), and the value is between the smallest and the largest component density.", "quantifier": "every number of components, every normalised weight vector, every batch of points, component log densities in [-inf, +inf)", "why_tests_cant": "Needs an identity between two different code paths (logsumexp versus sum of exp) for all real inputs, including -inf entries.", "anchors": ["ais_benchmarks/distributions/mixture/CMixtureModel.py::CMixtureModel.prob", "ais_benchmarks/distributions/mixture/CMixtureModel.py::CMixtureModel.log_prob"]}
{"id": "C04", "title": "A mixture of densities is a density", "statement": "If every component integrates to 1 over the space, the function computed by the mixture's prob is nonnegative and integrates to 1, for any weights accepted by set_weights that contain a positive finite entry and no +inf.", "quantifier": "every measure space, every finite family of integrable component densities, every weight vector", "why_tests_cant": "An integral over a continuum cannot be settled by evaluating finitely many points.", "anchors": ["ais_benchmarks/distributions/mixture/CMixtureModel.py::CMixtureModel.prob", "ais_benchmarks/distributions/mixture/CMixtureModel.py::CMixtureModel.set_weights"]}
{"id": "C05", "title": "Mixture sampling only uses components of positive weight and returns n points", "statement": "sample(n) returns exactly n points, the i-th one drawn from the component selected by the i-th one-hot draw; a component that was given zero, negative or NaN weight is never selected when some other component has positive weight.", "quantifier": "every n, every weight vector with a positive entry, every outcome of the random generator", "why_tests_cant": "The claim ranges over all outcomes of the random generator.", "anchors": ["ais_benchmarks/distributions/mixture/CMixtureModel.py::CMixtureModel.sample"]}
{"id": "C06", "title": "The uniform distribution is a density supported on its box", "statement": "For a uniform distribution of any center and positive radius, prob is 1/volume on the box (lower faces excluded, upper faces included) and 0 elsewhere, log_prob is its logarithm (-inf outside), and prob integrates to 1.", "quantifier": "every dimension, every center, every positive radius vector (or one common radius), every point", "why_tests_cant": "Integral over a continuum, all dimensions.", "anchors": ["ais_benchmarks/distributions/parametric/CMultivariateUniform.py::CMultivariateUniform"]}
{"id": "C07", "title": "Uniform integral(a,b) is the probability of the box", "statement": "integral(a,b) returns the probability mass the uniform distribution gives to the box [a,b]; in particular it is in [0,1], it is additive when a box is cut in two, and it is 0 for a box that does not meet the support.", "quantifier": "every dimension, center, radius and every pair of corners a < b", "why_tests_cant": "Position of the query box relative to the support is unbounded case analysis in d dimensions; sign errors cancel in even dimensions.", "anchors": ["ais_benchmarks/distributions/parametric/CMultivariateUniform.py::CMultivariateUniform.integral"]}
{"id": "C08", "title": "Uniform samples have positive density", "statement": "A point returned by sample has positive prob under the same distribution, so weights of the form target/prob are always defined.", "quantifier": "every dimension, every box, every outcome of the random generator including its end points", "why_tests_cant": "Only the end points of the generator's half-open range matter; random tests never hit them.", "anchors": ["ais_benchmarks/distributions/parametric/CMultivariateUniform.py::CMultivariateUniform.sample", "ais_benchmarks/distributions/parametric/CMultivariateUniform.py::CMultivariateUniform.prob", "ais_benchmarks/sampling_methods/hi_daisee.py::CHiDaiseeSampling.importance_sample"]}
{"id": "C09", "title": "The normal density is the Gaussian density and integrates to one", "statement": "With mean m and positive definite covariance S, prob(x) = exp(-(x-m)^T S^-1 (x-m)/2) / sqrt((2 pi)^d det S), log_prob is its logarithm, and prob is positive, symmetric about m, maximal exactly at m, and integrates to 1.", "quantifier": "every dimension, every mean, every positive definite covariance, every point", "why_tests_cant": "Integral over R^d for every d.", "anchors": ["ais_benchmarks/distributions/parametric/CMultivariateNormal.py::CMultivariateNormal"]}
{"id": "C10", "title": "set_moments leaves no trace of the previous moments", "statement": "After any sequence of set_moments calls, accepted or rejected, log_prob and prob are the same functions as those of a distribution freshly constructed with the last accepted moments; a rejected call (non positive determinant) raises.", "quantifier": "every sequence of moments, every point", "why_tests_cant": "Claim over all histories of updates.", "anchors": ["ais_benchmarks/distributions/parametric/CMultivariateNormal.py::CMultivariateNormal.set_moments", "ais_benchmarks/distributions/parametric/CMultivariateNormal.py::CMultivariateNormal.log_prob"]}
{"id": "C11", "title": "The exponential distribution has the exponential density", "statement": "For mean 1/l the density is l*exp(-l*x) on x > 0, integrates to 1, decreases, and log_prob is the log of prob everywhere.", "quantifier": "every positive mean and every point", "why_tests_cant": "A test with mean 1 passes although other means are wrong; integral over a continuum.", "anchors": ["ais_benchmarks/distributions/parametric/CMultivariateExponential.py::CMultivariateExponential"]}
{"id": "C12", "title": "prob and log_prob of every shipped density agree everywhere", "statement": "For each one dimensional density of the benchden suite and for the banana density exp(log_prob(x)) = prob(x) at every point, inside and outside the support.", "quantifier": "every shipped density, every point of its space", "why_tests_cant": "Disagreements sit on regions tests do not sample (outside the support).", "anchors": ["ais_benchmarks/distributions/benchden/d04_laplace.py::BenchDenLaplace", "ais_benchmarks/distributions/benchden/d03_maxwell.py::BenchDenMaxwell", "ais_benchmarks/distributions/benchden/d10_symmetric_pareto.py::BenchDenSymmetricPareto", "ais_benchmarks/distributions/rare/banana2d.py::Banana2D"]}
{"id": "C13", "title": "Benchden densities integrate to one", "statement": "The Laplace, Maxwell, symmetric Pareto and exponential densities are nonnegative and integrate to 1 over the line, the exponential being exp(-x) for x > 0 and 0 elsewhere, and the benchden uniform is the uniform density of [0,1].", "quantifier": "every point of the real line", "why_tests_cant": "Improper integrals with heavy tails are not decided by samples.", "anchors": ["ais_benchmarks/distributions/benchden/d04_laplace.py::BenchDenLaplace", "ais_benchmarks/distributions/benchden/d03_maxwell.py::BenchDenMaxwell", "ais_benchmarks/distributions/benchden/d10_symmetric_pareto.py::BenchDenSymmetricPareto", "ais_benchmarks/distributions/benchden/d01_uniform.py::BenchDenUniform", "ais_benchmarks/distributions/benchden/d02_exponential.py::BenchDenExponential"]}
{"id": "C14", "title": "Smoothing kernels are densities for every location and bandwidth", "statement": "The uniform, triangular and Epanechnikov kernels, translated to any location and scaled with any positive bandwidth parameter, are nonnegative, symmetric about the location, zero beyond their radius and integrate to 1.", "quantifier": "every location, every positive bandwidth, every point", "why_tests_cant": "Integral over a continuum for every bandwidth.", "anchors": ["ais_benchmarks/distributions/distributions.py::CKernel"]}
{"id": "C15", "title": "Batch evaluation does not couple the rows", "statement": "Evaluating a density on a batch of N points returns N values and the i-th one equals the value obtained by evaluating the i-th point alone; the shape normalisation accepts exactly a vector of length dims or an array with dims columns, and rejects the rest with ValueError.", "quantifier": "every batch size, every dimension, every array shape", "why_tests_cant": "Unbounded batch sizes and shapes.", "anchors": ["ais_benchmarks/distributions/distributions.py::CDistribution._check_shape", "ais_benchmarks/distributions/distributions.py::CDistribution.prob", "ais_benchmarks/distributions/mixture/CMixtureModel.py::CMixtureModel.prob", "ais_benchmarks/distributions/parametric/CMultivariateUniform.py::CMultivariateUniform.prob"]}
{"id": "C16", "title": "The KL divergence estimate is never negative", "statement": "compute_from_log_probs and compute_from_probs return a value >= 0 whenever they return a finite number, for any un-normalised densities of p and q at the evaluation points.", "quantifier": "every number of evaluation points, all nonnegative finite p and q values (log values may be -inf)", "why_tests_cant": "Gibbs inequality over all vectors; tests check a few Gaussians within a tolerance.", "anchors": ["ais_benchmarks/metrics/divergences.py::CKLDivergence.compute_from_log_probs", "ais_benchmarks/metrics/divergences.py::CKLDivergence.compute_from_probs"]}
{"id": "C17", "title": "The KL divergence is zero exactly for proportional densities and ignores normalisation", "statement": "On the points where both densities are positive the KL value is 0 iff q is a constant multiple of p, and multiplying p or q by a positive constant does not change the value.", "quantifier": "every number of points, all positive p and q values, all positive constants", "why_tests_cant": "Equality case of an inequality over all vectors.", "anchors": ["ais_benchmarks/metrics/divergences.py::CKLDivergence.compute_from_log_probs"]}
{"id": "C18", "title": "The Jensen-Shannon value is a normalised symmetric distance", "statement": "compute_from_samples returns a value between 0 and 1, does not change when p and q are exchanged or rescaled, and is 0 iff p and q are proportional on the points where both are positive.", "quantifier": "every number of points, all p and q values below +inf (non positive and NaN entries are filtered by the code)", "why_tests_cant": "Upper bound 1 must hold for all vectors.", "anchors": ["ais_benchmarks/metrics/divergences.py::CJSDivergence.compute_from_samples"]}
{"id": "C19", "title": "Divergences of densities with disjoint support are maximal", "statement": "When at every evaluation point p or q is zero, the KL divergence is +inf and the Jensen-Shannon divergence is 1.", "quantifier": "every number of points, all p and q that vanish at complementary points", "why_tests_cant": "The shipped test compares against inf with tolerance inf and therefore accepts any value.", "anchors": ["ais_benchmarks/metrics/divergences.py::CKLDivergence.compute_from_log_probs", "ais_benchmarks/metrics/divergences.py::CJSDivergence.compute_from_samples", "tests/metrics/test_metric_kldivergence.py", "tests/metrics/test_metric_jsdivergence.py"]}
{"id": "C20", "title": "The expected value MSE is a squared distance between the two means", "statement": "compute_from_samples returns a value >= 0, 0 when p and q are proportional, unchanged when p and q are exchanged or rescaled by positive constants, unchanged when all evaluation points are translated.", "quantifier": "every number of points and dimensions, all p and q with positive sum", "why_tests_cant": "Algebraic laws over all inputs.", "anchors": ["ais_benchmarks/metrics/statistics.py::CExpectedValueMSE"]}
{"id": "C21", "title": "Elapsed time accumulates exactly the measured intervals", "statement": "For any history of reset, pre and post calls in which every post follows a pre, the reported time is the sum over the pre/post pairs since the last reset of (end - start - overhead).", "quantifier": "every history of calls and every clock", "why_tests_cant": "All histories and all clock readings.", "anchors": ["ais_benchmarks/metrics/performance.py::CElapsedTime"]}
{"id": "C22", "title": "Metric reset forgets the past", "statement": "After reset, every metric reports the value of a freshly created metric until it is fed again.", "quantifier": "every performance metric and every history of calls before the reset", "why_tests_cant": "History quantifier; the shipped tests reset only fresh metrics.", "anchors": ["ais_benchmarks/metrics/performance.py::CElapsedTime.reset", "ais_benchmarks/metrics/performance.py::CMemoryUsage.reset"]}
{"id": "C23", "title": "Weight based NESS is in (0,1] and 1 exactly for equal weights", "statement": "get_approx_NESS (and the tree pyramid get_NESS) of n >= 1 nonnegative weights with positive sum is at least 1/n, at most 1, equals 1 iff all weights are equal, equals 1/n iff a single weight is non zero, and does not change when the weights are rescaled.", "quantifier": "every n and every nonnegative weight vector with positive sum", "why_tests_cant": "Cauchy-Schwarz inequality and its equality case over all vectors.", "anchors": ["ais_benchmarks/sampling_methods/base.py::CSamplingMethod.get_approx_NESS", "ais_benchmarks/sampling_methods/tree_pyramid.py::CTreePyramidSampling.get_NESS"]}
{"id": "C24", "title": "Perplexity based NESS of nested sampling is in (0,1]", "statement": "exp(entropy)/n of positive weights summing to 1 lies in (0,1], and is 1 iff the weights are uniform.", "quantifier": "every n and every positive weight vector summing to 1", "why_tests_cant": "Entropy bound over all vectors.", "anchors": ["ais_benchmarks/sampling_methods/nested.py::CNestedSampling.get_NESS"]}
{"id": "C25", "title": "Variogram NESS does not depend on units or origin", "statement": "Translating all samples or multiplying them by a non zero constant leaves get_NESS unchanged, and the autocorrelation sum always stops after at most n lags.", "quantifier": "every sample array with non zero variance, every translation, every non zero scale", "why_tests_cant": "Invariance over all sample histories including the data dependent stopping lag.", "anchors": ["ais_benchmarks/sampling_methods/base.py::CSamplingMethod.get_NESS"]}
{"id": "C26", "title": "Tree pyramid bookkeeping stays consistent under any expansion order", "statement": "After any sequence of expansions of leaves, every node stored at index i carries index i, every leaf carries its own position in the leaf list, the leaf mask marks exactly the leaves, the cached centers and radii equal those of the nodes, and the number of nodes and leaves is 1 + e*2^d and 1 + e*(2^d - 1) after e expansions.", "quantifier": "every dimension, every sequence of leaf expansions of any length", "why_tests_cant": "Unbounded sequences of in place updates to five parallel arrays.", "anchors": ["ais_benchmarks/sampling_methods/tree_pyramid.py::CTreePyramid.expand", "ais_benchmarks/sampling_methods/tree_pyramid.py::CTreePyramidNode"]}
{"id": "C27", "title": "Tree pyramid leaves tile the root cube", "statement": "After any sequence of expansions the interiors of distinct leaves are disjoint, every point of the root cube belongs to some leaf, the leaf volumes add up to the root volume, and the root cube contains the whole [space_min, space_max] box.", "quantifier": "every dimension, every sequence of leaf expansions, every point", "why_tests_cant": "Geometric invariant over all refinement histories and a continuum of points.", "anchors": ["ais_benchmarks/sampling_methods/tree_pyramid.py::CTreePyramid.expand", "ais_benchmarks/sampling_methods/tree_pyramid.py::CTreePyramid.__init__"]}
{"id": "C28", "title": "The tree pyramid haar proposal is a density", "statement": "For the haar kernel prob(x) never meets two leaves, equals leaf weight / leaf volume inside a leaf and 0 on leaf borders and outside the root, and after the model update integrates to 1 over the space.", "quantifier": "every dimension, every expansion history, every nonnegative leaf weights with positive sum, every point", "why_tests_cant": "Integral over a continuum for all tree shapes.", "anchors": ["ais_benchmarks/sampling_methods/tree_pyramid.py::CTreePyramidSampling.prob", "ais_benchmarks/sampling_methods/tree_pyramid.py::CTreePyramidSampling._self_normalize", "ais_benchmarks/sampling_methods/tree_pyramid.py::CTreePyramidSampling._update_model"]}
{"id": "C29", "title": "find returns the leaf that contains the point", "statement": "find(x) terminates and returns a leaf whose box contains x, for any x in the root cube and any tree obtained by expansions.", "quantifier": "every tree and every point of the root cube", "why_tests_cant": "Needs termination on all trees; the failing case (an expanded root) recurses forever.", "anchors": ["ais_benchmarks/sampling_methods/tree_pyramid.py::CTreePyramid.find", "ais_benchmarks/sampling_methods/tree_pyramid.py::CTreePyramidNode.get_child"]}
{"id": "C30", "title": "The samples handed back by the tree pyramid are exactly those stored in the leaves", "statement": "When sample histories are kept (ess_target <= 1), the samples and weights returned are, in leaf order, all samples and weights with positive weight stored in the leaves, each exactly once.", "quantifier": "every leaf list and every history length per leaf", "why_tests_cant": "Loss occurs only for unequal history lengths; sizes unbounded.", "anchors": ["ais_benchmarks/sampling_methods/tree_pyramid.py::CTreePyramidSampling._get_samples"]}
{"id": "C31", "title": "Tree pyramid samples never leave their leaf, samples and weights stay aligned", "statement": "With the haar kernel every sample recorded for a leaf (first draw, resample after expansion or weighting) lies in that leaf's box, each leaf's sample and weight histories have the same non zero length, and the cached last sample and weight belong to the same leaf.", "quantifier": "every run of importance_sample, every random outcome, every target", "why_tests_cant": "All executions of a loop with data dependent refinement.", "anchors": ["ais_benchmarks/sampling_methods/tree_pyramid.py::CTreePyramidSampling.importance_sample_simple", "ais_benchmarks/sampling_methods/tree_pyramid.py::CTreePyramidNode.sample", "ais_benchmarks/sampling_methods/tree_pyramid.py::CTreePyramidNode.weigh", "ais_benchmarks/sampling_methods/tree_pyramid.py::CTreePyramidSampling.resample"]}
{"id": "C32", "title": "A leaf is only split when its weights are uneven enough, and splitting conserves weight", "statement": "expand creates children iff at least n_min samples are stored and their effective sample size is at most ess_target times their number (or no target is set); it creates 2^d children centred at the corner midpoints with half the radius, whose weights add up to the weight of the parent.", "quantifier": "every leaf, every weight history, every ess_target and n_min", "why_tests_cant": "Decision boundary over all weight histories.", "anchors": ["ais_benchmarks/sampling_methods/tree_pyramid.py::CTreePyramid.expand"]}
{"id": "C33", "title": "The weights of one refinement step estimate the integral of the target over the refined cells", "statement": "If a point is drawn uniformly in each of a list of cells and weighted by target/density, the expected total weight is the integral of the target over the union of the cells.", "quantifier": "every dimension, every finite list of cells with positive radius, every integrable target", "why_tests_cant": "Expectation over a continuum of draws.", "anchors": ["ais_benchmarks/sampling_methods/tree_pyramid.py::CTreePyramidNode.weigh", "ais_benchmarks/sampling_methods/tree_pyramid.py::CTreePyramidNode.sample"]}
{"id": "C34", "title": "The refinement step respects the requested number of parallel samples", "statement": "_expand_nodes never returns two entries for the same leaf, every returned entry is a leaf of the tree after the step, and when every visited leaf splits it returns at most max_parts + 2^d nodes.", "quantifier": "every list of candidate leaves, every max_parts, every tree", "why_tests_cant": "Loop with early exit over unbounded lists.", "anchors": ["ais_benchmarks/sampling_methods/tree_pyramid.py::CTreePyramidSampling._expand_nodes"]}
{"id": "C35", "title": "HiDaisee leaves tile the space under any sequence of splits", "statement": "After any sequence of leaf splits along any dimensions, every point of the root box (lower faces excluded) lies in exactly one leaf, the leaf volumes add up to the root volume, and with L leaves there are 2L-1 nodes.", "quantifier": "every dimension, every sequence of splits, every point", "why_tests_cant": "Geometric invariant over all histories and a continuum of points.", "anchors": ["ais_benchmarks/sampling_methods/hi_daisee.py::CHiDaiseeTree.split", "ais_benchmarks/sampling_methods/hi_daisee.py::CHiDaiseeNode"]}
{"id": "C36", "title": "HiDaisee splits neither lose nor invent samples", "statement": "A split either raises (a stored sample lies on the cutting plane) or distributes the parent's samples over the two children so that every sample is in exactly one child, inside that child's box, with weight target/density of that child; consequently after importance_sample(n) exactly max(n, previous) samples are returned.", "quantifier": "every stored sample list, every cut dimension, every run", "why_tests_cant": "All histories and sample placements.", "anchors": ["ais_benchmarks/sampling_methods/hi_daisee.py::CHiDaiseeTree.split", "ais_benchmarks/sampling_methods/hi_daisee.py::CHiDaiseeNode.add_sample", "ais_benchmarks/sampling_methods/hi_daisee.py::CHiDaiseeSampling._get_samples"]}
{"id": "C37", "title": "HiDaisee keeps every inner node's mass equal to the sum of its children", "statement": "After each iteration the sampling mass q of every ancestor of the visited leaf equals the sum of the masses of its two children.", "quantifier": "every tree depth and every visited leaf", "why_tests_cant": "The failure needs a tree of depth two or more.", "anchors": ["ais_benchmarks/sampling_methods/hi_daisee.py::CHiDaiseeSampling.importance_sample"]}
{"id": "C38", "title": "DM-AIS returns normalised weights and never discards samples", "statement": "importance_sample(n) keeps all earlier samples as a prefix, appends whole batches of N*K samples, stops with n <= size < n + N*K when not interrupted by the timeout, keeps one weight per sample, and returns weights that sum to 1 whenever some target value was positive.", "quantifier": "every n, N, K with N*K >= 2, every sequence of random draws and clock readings, every positive proposal density", "why_tests_cant": "All loop executions and clock schedules.", "anchors": ["ais_benchmarks/sampling_methods/dm_ais.py::CDeterministicMixtureAIS.importance_sample"]}
{"id": "C39", "title": "DM-AIS adaptation moves proposals only to sampled points of positive weight", "statement": "After adaptation each of the N proposals is centred on one of the samples of the batch whose weight is positive, and the number of proposals and their mixture weights do not change.", "quantifier": "every batch, every weights with positive sum, every outcome of the random generator", "why_tests_cant": "All random outcomes.", "anchors": ["ais_benchmarks/sampling_methods/dm_ais.py::CDeterministicMixtureAIS.resample"]}
{"id": "C40", "title": "Deterministic mixture weights are unbiased", "statement": "If K points are drawn from each of N proposals and weighted with target / (average of the N proposal densities), the expected weighted sum of any test function divided by N*K is the integral of the function times the target, provided the mixture density is positive wherever the target is.", "quantifier": "every measure space, every N >= 1, every proposals and integrable test function", "why_tests_cant": "Expectation over a continuum.", "anchors": ["ais_benchmarks/sampling_methods/dm_ais.py::CDeterministicMixtureAIS.importance_sample", "ais_benchmarks/sampling_methods/layered_ais.py::CLayeredAIS.importance_sample"]}
{"id": "C41", "title": "Layered AIS proposals never leave the search space", "statement": "At every moment of any run the centre of every proposal lies in the box [space_min, space_max].", "quantifier": "every run, every random outcome, every target", "why_tests_cant": "Invariant over all executions.", "anchors": ["ais_benchmarks/sampling_methods/layered_ais.py::CLayeredAIS.reset", "ais_benchmarks/sampling_methods/layered_ais.py::CLayeredAIS.mcmc_mh", "ais_benchmarks/sampling_methods/layered_ais.py::CLayeredAIS.resample"]}
{"id": "C42", "title": "Layered AIS returns normalised weights, keeps samples and counts its evaluations", "statement": "Same contract as C38 for layered AIS; moreover after r rounds the target evaluation count is r*N*(2L + K) and the proposal sample count is r*N*(L+K).", "quantifier": "every n, N, K, L, every random outcome and clock", "why_tests_cant": "All executions.", "anchors": ["ais_benchmarks/sampling_methods/layered_ais.py::CLayeredAIS.importance_sample", "ais_benchmarks/sampling_methods/layered_ais.py::CLayeredAIS.mcmc_mh"]}
{"id": "C43", "title": "M-PMC mixture weights stay a probability vector and means stay in the convex hull of the batch", "statement": "If the proposal mixture density is positive at the samples, adaptation yields mixture weights >= 0 summing to 1 and each new mean of a component with positive weight is a convex combination of the samples of the batch.", "quantifier": "every number of components, every batch, every normalised weights", "why_tests_cant": "Algebraic identity over all inputs.", "anchors": ["ais_benchmarks/sampling_methods/m_pmc.py::CMixturePMC.adapt", "ais_benchmarks/sampling_methods/m_pmc.py::CMixturePMC.importance_sample"]}
{"id": "C44", "title": "M-PMC returns normalised weights", "statement": "The weights returned by importance_sample sum to 1, as for the other importance sampling methods.", "quantifier": "every number of batches", "why_tests_cant": "Holds for one batch, which is what tests exercise, and fails for two.", "anchors": ["ais_benchmarks/sampling_methods/m_pmc.py::CMixturePMC.importance_sample"]}
{"id": "C45", "title": "M-PMC covariance update is the weighted covariance", "statement": "The new covariance of a component is the sample covariance of the batch weighted with weight*posterior/component weight (Cappe 2008, eq. 14.3).", "quantifier": "every batch and weights", "why_tests_cant": "Matrix identity over all batches.", "anchors": ["ais_benchmarks/sampling_methods/m_pmc.py::CMixturePMC.adapt"]}
{"id": "C46", "title": "Metropolis-Hastings samples stay in the search space and the accounting is exact", "statement": "Every sample returned and every logged point lies in [space_min, space_max], whatever the clock; the trajectory log has one label per logged point; the proposal sample count equals the trajectory length and target and proposal evaluation counts are twice that.", "quantifier": "every run, every random outcome, every target and clock", "why_tests_cant": "Invariant over all executions.", "anchors": ["ais_benchmarks/sampling_methods/metropolis_hastings.py::CMetropolisHastings.mcmc_step", "ais_benchmarks/sampling_methods/metropolis_hastings.py::CMetropolisHastings.mcmc", "ais_benchmarks/sampling_methods/metropolis_hastings.py::CMetropolisHastings.importance_sample"]}
{"id": "C47", "title": "Metropolis-Hastings sample(n) returns n samples", "statement": "sample(n) returns exactly n samples.", "quantifier": "every n", "why_tests_cant": "n = 1 is the only value used by the library and passes.", "anchors": ["ais_benchmarks/sampling_methods/metropolis_hastings.py::CMetropolisHastings.sample"]}
{"id": "C48", "title": "The Metropolis-Hastings chain leaves the target invariant", "statement": "The transition kernel realised by mcmc_step (with unlimited time) leaves the target distribution invariant.", "quantifier": "every target density, every proposal density", "why_tests_cant": "A statement about transition probabilities, not about any finite set of runs.", "anchors": ["ais_benchmarks/sampling_methods/metropolis_hastings.py::CMetropolisHastings.mcmc_step"]}
{"id": "C49", "title": "A point rejected by Metropolis-Hastings is never returned as a sample", "statement": "Every point logged as accepted and returned passed the acceptance test.", "quantifier": "every run, every clock schedule including timeouts", "why_tests_cant": "Depends on the clock schedule.", "anchors": ["ais_benchmarks/sampling_methods/metropolis_hastings.py::CMetropolisHastings.mcmc_step"]}
{"id": "C50", "title": "Rejection sampling returns only accepted points, never more than asked, with uniform weights", "statement": "importance_sample(n) keeps earlier samples as prefix, never exceeds max(n, previous size), every new sample satisfied target/(scaling*proposal) > u for its own uniform draw u >= 0, and all returned weights equal 1/size.", "quantifier": "every run, every random outcome, every target, every clock", "why_tests_cant": "All executions.", "anchors": ["ais_benchmarks/sampling_methods/rejection.py::CRejectionSampling.importance_sample"]}
{"id": "C51", "title": "Accepted points follow the target", "statement": "If scaling*proposal >= target everywhere, the density of accepted points is target/scaling, hence proportional to the target, and the acceptance probability is integral(target)/scaling.", "quantifier": "every measure space, every proposal and target densities with the envelope property", "why_tests_cant": "Probability over a continuum.", "anchors": ["ais_benchmarks/sampling_methods/rejection.py::CRejectionSampling.importance_sample"]}
{"id": "C52", "title": "Rejection sampling counts the proposals it draws", "statement": "The reported number of proposal samples equals the number of points drawn from the proposal, so the acceptance rate is the fraction of drawn points that were kept.", "quantifier": "every run", "why_tests_cant": "The discrepancy needs a second loop iteration.", "anchors": ["ais_benchmarks/sampling_methods/rejection.py::CRejectionSampling.importance_sample", "ais_benchmarks/sampling_methods/base.py::CSamplingMethod.get_acceptance_rate"]}
{"id": "C53", "title": "Nested sampling discards points of non decreasing likelihood and keeps N live points", "statement": "With no timeout the likelihoods of the successively discarded points never decrease, also across calls, each discarded point was a live point of minimal likelihood, and the number of live points is always N.", "quantifier": "every run, every random outcome, every target", "why_tests_cant": "Invariant over all executions.", "anchors": ["ais_benchmarks/sampling_methods/nested.py::CNestedSampling.importance_sample", "ais_benchmarks/sampling_methods/nested.py::CNestedSampling.resample"]}
{"id": "C54", "title": "Nested sampling returns exactly n weighted samples whose weights sum to one", "statement": "importance_sample(n) with no timeout returns max(n, previous size) samples with the earlier samples as prefix; weights are nonnegative, one per sample and sum to 1 whenever some likelihood is positive.", "quantifier": "every n >= 1, every run", "why_tests_cant": "All executions.", "anchors": ["ais_benchmarks/sampling_methods/nested.py::CNestedSampling.importance_sample"]}
{"id": "C55", "title": "Nested sampling prior masses add up to at most the whole prior", "statement": "The prior mass increments used to weigh the samples are nonnegative and sum to at most 1.", "quantifier": "every number of samples and live points", "why_tests_cant": "Telescoping sum for all lengths.", "anchors": ["ais_benchmarks/sampling_methods/nested.py::CNestedSampling.importance_sample"]}
{"id": "C56", "title": "Nested sampling samples stay in the search space", "statement": "All returned samples lie in [space_min, space_max].", "quantifier": "every run", "why_tests_cant": "The failing branch is a retry of the inner loop.", "anchors": ["ais_benchmarks/sampling_methods/nested.py::CNestedSampling.resample"]}
{"id": "C57", "title": "Ellipsoid clustering terminates and partitions the live points", "statement": "recursive_clustering terminates without exception for every set of at least two live points (and at least as many as dimensions), every positive inflation factor and every clustering oracle; with the ellipsoids it returns every live point index occurs in exactly one ellipsoid.", "quantifier": "every set of points, every behaviour of KMeans, every ellipsoid volumes", "why_tests_cant": "Termination of an unbounded recursion for every oracle.", "anchors": ["ais_benchmarks/sampling_methods/multi_nested.py::CMultiNestedSampling.recursive_clustering"]}
{"id": "C58", "title": "Multi-nested sampling returns the number of samples asked for", "statement": "importance_sample(n) returns exactly max(n, previous size) samples.", "quantifier": "every n and every number of ellipsoids", "why_tests_cant": "Rounding of n/k for all k.", "anchors": ["ais_benchmarks/sampling_methods/multi_nested.py::CMultiNestedSampling.importance_sample"]}
{"id": "C59", "title": "Repeating a request for samples is free", "statement": "For DM-AIS, layered AIS, M-PMC, rejection and nested sampling, asking for no more samples than already available draws nothing, evaluates nothing and returns the same samples.", "quantifier": "every sampler state and every n", "why_tests_cant": "All states.", "anchors": ["ais_benchmarks/sampling_methods/dm_ais.py", "ais_benchmarks/sampling_methods/layered_ais.py", "ais_benchmarks/sampling_methods/m_pmc.py", "ais_benchmarks/sampling_methods/rejection.py", "ais_benchmarks/sampling_methods/nested.py"]}
{"id": "C60", "title": "reset makes a sampler indistinguishable from a new one", "statement": "After reset, given the same random stream, a sampler behaves like a freshly constructed one, whatever was done before.", "quantifier": "every sampler, every history before the reset, every random stream", "why_tests_cant": "Non interference over all histories.", "anchors": ["ais_benchmarks/sampling_methods/base.py::CSamplingMethod.reset", "ais_benchmarks/sampling_methods/metropolis_hastings.py::CMetropolisHastings.reset", "ais_benchmarks/sampling_methods/nested.py::CNestedSampling.reset", "ais_benchmarks/sampling_methods/dm_ais.py::CDeterministicMixtureAIS.reset", "ais_benchmarks/sampling_methods/m_pmc.py::CMixturePMC.reset"]}
{"id": "C61", "title": "The evaluation loop ends and reports strictly growing sample counts", "statement": "If every call for n samples returns at least n samples, each repetition ends after at most ceil(max_samples/batch_size) calls, writes one line per call, the reported sample counts strictly increase, only the last reaches max_samples, and n_reps repetitions are written.", "quantifier": "every method behaviour, every max_samples, batch_size >= 1 and n_reps", "why_tests_cant": "All behaviours of the method under test.", "anchors": ["ais_benchmarks/benchmark/CBenchmark.py::CBenchmark.evaluate_method"]}
{"id": "C62", "title": "The sampling time limit stops a repetition", "statement": "A repetition stops once the time spent sampling exceeds max_sampling_time.", "quantifier": "every method behaviour and clock", "why_tests_cant": "Depends on the clock and on methods that make no progress.", "anchors": ["ais_benchmarks/benchmark/CBenchmark.py::CBenchmark.evaluate_method"]}
{"id": "C63", "title": "Every result line has the columns announced by the header", "statement": "For any list of metrics in the configuration, every result line splits into as many fields as the header and the value under a metric's column is the value computed for that metric.", "quantifier": "every list of metric names, every values", "why_tests_cant": "All metric lists and all value widths.", "anchors": ["ais_benchmarks/benchmark/CBenchmark.py::CBenchmark.run", "ais_benchmarks/benchmark/CBenchmark.py::CBenchmark.evaluate_method", "ais_benchmarks/benchmark/CBenchmark.py::CBenchmark.write_results"]}
{"id": "C64", "title": "A method's results do not depend on which other methods are benchmarked", "statement": "With a non negative seed the results produced for a method and target are a function of the method, target and seed only.", "quantifier": "every list of methods before it, every random stream consumed before", "why_tests_cant": "Non interference over all benchmark configurations.", "anchors": ["ais_benchmarks/benchmark/CBenchmark.py::CBenchmark.evaluate_method", "ais_benchmarks/benchmark/CBenchmark.py::CBenchmark.run"]}
{"id": "C65", "title": "time_to_hms loses no time", "statement": "h*3600 + m*60 + s equals the input, h and m are integers, 0 <= m < 60 and 0 <= s < 60.", "quantifier": "every time", "why_tests_cant": "All real inputs.", "anchors": ["ais_benchmarks/utils/misc.py::time_to_hms"]}
{"id": "C66", "title": "The stream reader delivers every line once and in order", "statement": "With any interleaving of the reader thread and calls to read, the lines returned followed by the lines still queued are the lines produced so far in order; read never blocks.", "quantifier": "every schedule of the two threads and every stream", "why_tests_cant": "All interleavings.", "anchors": ["ais_benchmarks/utils/misc.py::CNonBlockingStreamReader"]}
{"id": "C67", "title": "read_last_and_clear returns the newest line available", "statement": "read_last_and_clear returns a line at least as recent as every line that was available when it was called, and later calls never go back in time.", "quantifier": "every schedule of the two threads, with and without keep_last", "why_tests_cant": "A race between two threads.", "anchors": ["ais_benchmarks/utils/misc.py::CNonBlockingStreamReader.read_last_and_clear"]}
{"id": "C68", "title": "make_grid enumerates the full lattice exactly once inside the box", "statement": "make_grid returns prod(shape) points, they are exactly the points of the product of the per axis lattices, each once, all inside [space_min, space_max], with each axis having max(1, floor(range/resolution)) points starting at space_min; in two dimensions reshaping values by shape puts the value of point (x_i, y_j) at [i][j].", "quantifier": "every dimension, every box, every positive resolution", "why_tests_cant": "All dimensions and shapes.", "anchors": ["ais_benchmarks/sampling_methods/base.py::make_grid", "ais_benchmarks/utils/plot_utils.py::make_grid", "ais_benchmarks/utils/misc.py::generateEggBoxGMM"]}
{"id": "C69", "title": "A random GMM lives inside the requested space", "statement": "generateRandomGMM returns the requested number of components, positive diagonal covariances within the requested bounds, means at least 5 maximal standard deviations away from the borders and a support that contains every mean plus/minus 5 maximal standard deviations and lies inside the space.", "quantifier": "every number of components, every space wide enough, every random outcome", "why_tests_cant": "All random outcomes.", "anchors": ["ais_benchmarks/utils/misc.py::generateRandomGMM"]}
{"id": "C70", "title": "Conditioned models refuse to be evaluated before being conditioned", "statement": "ABC and noisy generator models raise ValueError when evaluated or sampled before condition is called and never afterwards; the ABC posterior value is likelihood(simulated output, observation) times the prior, and its log is the log of its prob when both likelihood forms agree.", "quantifier": "every order of calls and every models", "why_tests_cant": "All call histories.", "anchors": ["ais_benchmarks/distributions/derived/CABCDistribution.py::ABCDistribution", "ais_benchmarks/distributions/derived/CGenericNoisyFunction.py::GenericNoisyFunction", "ais_benchmarks/distributions/derived/GenericNuisanceGenModel.py::GenericNuisanceGenModel"]}
{"id": "C71", "title": "A tree pyramid call never raises and returns what was asked for", "statement": "With the simple scheme, the haar kernel and a numeric ess_target, importance_sample never raises for any target, including targets that return zero, infinite or undefined values; when it returns, samples and weights have the same length and there are at least as many as requested unless the time limit passed.", "quantifier": "every box with positive side lengths, every dimension, every sequence of calls, every target, every random outcome", "why_tests_cant": "The property is about every run and every numeric result of the target.", "anchors": ["ais_benchmarks/sampling_methods/tree_pyramid.py::CTreePyramidSampling.importance_sample", "ais_benchmarks/sampling_methods/tree_pyramid.py::CTreePyramidSampling.importance_sample_simple"]}
{"id": "C72", "title": "The documented ess_target None is usable", "statement": "A tree pyramid sampler configured with ess_target=None (documented as always expand) can serve importance_sample calls.", "quantifier": "every box, target, request and random outcome", "why_tests_cant": "One failing call would be found by a test, that every call fails cannot.", "anchors": ["ais_benchmarks/sampling_methods/tree_pyramid.py::CTreePyramidSampling._get_samples", "ais_benchmarks/sampling_methods/tree_pyramid.py::CTreePyramid.expand"]}
{"id": "C73", "title": "Every normal distribution the constructor accepts is a probability density", "statement": "If the constructor of the multivariate normal accepts a mean and a covariance, the resulting prob is bounded and integrates to 1.", "quantifier": "every dimension, mean and covariance accepted by the constructor", "why_tests_cant": "The accepted but invalid covariances (positive determinant, not positive definite) exist only from dimension 2 on and no test builds one.", "anchors": ["ais_benchmarks/distributions/parametric/CMultivariateNormal.py::CMultivariateNormal"]}
{"id": "C74", "title": "A density is zero outside its support", "statement": "Evaluating prob of the exponential and Maxwell densities on any batch of points returns one value per point, and the value is 0 at every point outside the support.", "quantifier": "every batch, including batches that lie completely outside the support, and every positive mean", "why_tests_cant": "Depends on the whole composition of the batch, not on one point.", "anchors": ["ais_benchmarks/distributions/parametric/CMultivariateExponential.py::CMultivariateExponential.prob", "ais_benchmarks/distributions/benchden/d03_maxwell.py::BenchDenMaxwell.prob"]}
{"id": "C76", "title": "Divergence terms can be recomputed from the same arrays", "statement": "compute_from_log_probs and compute_from_probs normalise the arrays of the caller in place; calling them again on the same arrays returns the same result and leaves the arrays unchanged.", "quantifier": "every pair of arrays without +inf entries", "why_tests_cant": "The in place update is visible only to callers that keep the arrays; unit tests pass temporaries.", "anchors": ["ais_benchmarks/metrics/divergences.py::CKLDivergence.compute_from_log_probs", "ais_benchmarks/metrics/divergences.py::CKLDivergence.compute_from_probs"]}
{"id": "C77", "title": "The effective sample size reported for a chain is a number in (0,1]", "statement": "get_NESS of a sampling method without own implementation, called with at least two stored samples, returns a number greater than 0 and at most 1.", "quantifier": "every sample array with at least two rows", "why_tests_cant": "Depends on the autocorrelations of arbitrary sample histories.", "anchors": ["ais_benchmarks/sampling_methods/base.py::CSamplingMethod.get_NESS"]}
{"id": "C78", "title": "DM-AIS tolerates a batch on which the target is zero", "statement": "importance_sample never raises when the target happens to be zero at every point of a batch; it goes on drawing batches.", "quantifier": "every state, every batch of draws, every target", "why_tests_cant": "Depends on the random draws all missing the support of the target.", "anchors": ["ais_benchmarks/sampling_methods/dm_ais.py::CDeterministicMixtureAIS.resample", "ais_benchmarks/sampling_methods/dm_ais.py::CDeterministicMixtureAIS.importance_sample"]}
{"id": "C79", "title": "Every number of proposals and of samples per proposal works", "statement": "DM-AIS and layered AIS serve importance_sample for every number N >= 1 of proposals and K >= 1 of samples per proposal.", "quantifier": "every N, K, target and random outcome", "why_tests_cant": "The failing case N = K = 1 is not used by the shipped configurations.", "anchors": ["ais_benchmarks/sampling_methods/dm_ais.py::CDeterministicMixtureAIS.importance_sample", "ais_benchmarks/sampling_methods/layered_ais.py::CLayeredAIS.importance_sample"]}
{"id": "C80", "title": "M-PMC returns points of the space", "statement": "Every sample returned by M-PMC has finite coordinates.", "quantifier": "every run, every target that is positive somewhere, every random outcome", "why_tests_cant": "The failure needs a batch that misses the support of the target and a second batch.", "anchors": ["ais_benchmarks/sampling_methods/m_pmc.py::CMixturePMC.adapt", "ais_benchmarks/sampling_methods/m_pmc.py::CMixturePMC.importance_sample", "ais_benchmarks/distributions/mixture/CMixtureModel.py::CMixtureModel.set_weights"]}
{"id": "C81", "title": "M-PMC works for every batch size", "statement": "importance_sample serves requests for every number K >= 1 of samples per batch, dimension and positive target.", "quantifier": "every K, N, dimension, target and random outcome", "why_tests_cant": "Singularity of the adapted covariance for all point configurations.", "anchors": ["ais_benchmarks/sampling_methods/m_pmc.py::CMixturePMC.adapt", "ais_benchmarks/distributions/parametric/CMultivariateNormal.py::CMultivariateNormal.set_moments"]}
{"id": "C82", "title": "M-PMC keeps samples, adds whole batches and counts its evaluations", "statement": "importance_sample(n) keeps earlier samples and weights as prefix, adds whole batches of K samples with one weight each, overshoots n by less than K, reaches n unless the clock or an exception interrupts it, and after r batches has counted r*K target evaluations, r*K*(N+1) proposal evaluations and r*K proposal samples.", "quantifier": "every state, every n, K, N, every random outcome and clock", "why_tests_cant": "All executions.", "anchors": ["ais_benchmarks/sampling_methods/m_pmc.py::CMixturePMC.importance_sample"]}
{"id": "C83", "title": "The Metropolis-Hastings log marks exactly the returned samples", "statement": "As long as no step starts after the timeout, the points of the trajectory log labelled SAMPLE are, in order, exactly the samples handed out.", "quantifier": "every run with n_steps >= 1, every random outcome", "why_tests_cant": "Labels are overwritten up to four times along a run; all executions.", "anchors": ["ais_benchmarks/sampling_methods/metropolis_hastings.py::CMetropolisHastings.mcmc", "ais_benchmarks/sampling_methods/metropolis_hastings.py::CMetropolisHastings.sample"]}
{"id": "C84", "title": "Metropolis-Hastings importance_sample returns what was asked for with uniform weights", "statement": "importance_sample(n) keeps earlier samples as prefix and never exceeds max(n, previous size); when it returns there is at least one sample, one weight 1/size per sample, the weights add up to 1, and without timeout there are exactly max(n, previous size) samples. It returns whenever every step eventually proposes an acceptable point.", "quantifier": "every state, n, random outcome and clock", "why_tests_cant": "All executions.", "anchors": ["ais_benchmarks/sampling_methods/metropolis_hastings.py::CMetropolisHastings.importance_sample"]}
{"id": "C86", "title": "Nested sampling: every returned sample is the point that was discarded", "statement": "Every sample returned by nested sampling (and multi-nested sampling) is the live point discarded at that step, so the target at sample k is the likelihood recorded for it.", "quantifier": "every call history without timeout", "why_tests_cant": "Aliasing of arrays; tests look at sizes.", "anchors": ["ais_benchmarks/sampling_methods/nested.py::CNestedSampling.importance_sample", "ais_benchmarks/sampling_methods/multi_nested.py::CMultiNestedSampling.importance_sample"]}
{"id": "C87", "title": "Nested sampling: asking in portions equals asking at once", "statement": "With the same random outcomes, importance_sample(a) followed by importance_sample(b) with a <= b leaves the same samples, live points, recorded likelihoods and weights as importance_sample(b) directly.", "quantifier": "every state, every a <= b, every random outcome and clock", "why_tests_cant": "Equality of unboundedly long executions.", "anchors": ["ais_benchmarks/sampling_methods/nested.py::CNestedSampling.importance_sample"]}
{"id": "C88", "title": "Multi-nested sampling discards points of non decreasing likelihood", "statement": "The likelihoods recorded by a call of multi-nested importance_sample never decrease when the clock does not run out.", "quantifier": "every state, every behaviour of KMeans, every random outcome", "why_tests_cant": "All executions.", "anchors": ["ais_benchmarks/sampling_methods/multi_nested.py::CMultiNestedSampling.importance_sample", "ais_benchmarks/sampling_methods/multi_nested.py::CMultiNestedSampling.resample"]}
{"id": "C89", "title": "Multi-nested sampling keeps N live points and returns normalised weights", "statement": "After any history there are N live points. A call that returns keeps earlier samples as prefix, returns at least one sample and records one likelihood per sample. With a nonnegative target and some positive recorded likelihood there is one nonnegative weight per sample, they add up to 1 and are proportional to recorded likelihood times prior mass increment.", "quantifier": "every history, every behaviour of KMeans, every random outcome and clock", "why_tests_cant": "All executions.", "anchors": ["ais_benchmarks/sampling_methods/multi_nested.py::CMultiNestedSampling.importance_sample"]}
{"id": "C91", "title": "A Gaussian mixture model is the weighted sum of its normals", "statement": "The mixture built from means, diagonal variances and weights reports, at every point, the sum of the normal densities with those means and variances weighted by the normalised weights; log_prob is its logarithm and the density integrates to 1.", "quantifier": "every number of components, every dimension, all positive variances and usable weights, every point", "why_tests_cant": "All mixtures and points, and an integral over the whole space.", "anchors": ["ais_benchmarks/distributions/mixture/CGaussianMixtureModel.py::CGaussianMixtureModel", "ais_benchmarks/distributions/mixture/CMixtureModel.py::CMixtureModel.log_prob"]}
{"id": "C92", "title": "The egg box has one equally weighted component per lattice point", "statement": "generateEggBoxGMM returns a mixture with exactly one component at each point of the lattice of the box, each with the requested variance in every coordinate and all with the same weight, and a support reaching five times the variance beyond the box.", "quantifier": "every dimension, box, positive resolution and positive variance", "why_tests_cant": "All dimensions and lattice sizes.", "anchors": ["ais_benchmarks/utils/misc.py::generateEggBoxGMM"]}
{"id": "C93", "title": "A noisy function reports the density of its own samples", "statement": "For a noisy function conditioned on x, the value prob reports for its own sample function(x) + noise is the density of that noise.", "quantifier": "every function, noise model, conditioning value and random outcome", "why_tests_cant": "All functions and noise outcomes.", "anchors": ["ais_benchmarks/distributions/derived/CGenericNoisyFunction.py::GenericNoisyFunction.prob", "ais_benchmarks/distributions/derived/CGenericNoisyFunction.py::GenericNoisyFunction.sample"]}
{"id": "C94", "title": "A mixture of shipped densities is the weighted sum of what its components report", "statement": "Evaluating prob or log_prob of a mixture on any batch of points succeeds, and prob is at every point the sum of the values the components' own prob reports there, weighted with the normalised weights; log_prob is its logarithm.", "quantifier": "every list of shipped components, every usable weight vector, every batch", "why_tests_cant": "All combinations of components, weights and batches; shapes returned by different components differ.", "anchors": ["ais_benchmarks/distributions/mixture/CMixtureModel.py::CMixtureModel.prob", "ais_benchmarks/distributions/mixture/CMixtureModel.py::CMixtureModel.log_prob", "ais_benchmarks/distributions/benchden/d04_laplace.py::BenchDenLaplace.log_prob", "ais_benchmarks/distributions/parametric/CMultivariateExponential.py::CMultivariateExponential.log_prob"]}
{"id": "C95", "title": "The proposal adaptation of layered AIS leaves the target invariant", "statement": "If the centre of a proposal is distributed like the target, then after the Metropolis moves of one adaptation it is again distributed like the target, whatever the number of moves.", "quantifier": "every normalised target density on the space, symmetric offset density with independent draws, number of moves", "why_tests_cant": "A statement about the law of the chain; a test sees single random trajectories.", "anchors": ["ais_benchmarks/sampling_methods/layered_ais.py::CLayeredAIS.mcmc_mh"]}
{"id": "C96", "title": "Layered AIS adaptation never leaves the support of the target", "statement": "When all proposals start at points with positive target density, they are at points with positive target density after any importance_sample call, and a candidate at least as likely as the current centre is always taken.", "quantifier": "every non-negative target, random offsets and acceptance draws in [0,1), number of proposals, moves and requested samples", "why_tests_cant": "All random outcomes and call lengths.", "anchors": ["ais_benchmarks/sampling_methods/layered_ais.py::CLayeredAIS.mcmc_mh", "ais_benchmarks/sampling_methods/layered_ais.py::CLayeredAIS.resample", "ais_benchmarks/sampling_methods/layered_ais.py::CLayeredAIS.importance_sample"]}
{"id": "C85", "title": "After sampling, a sampler's density is the kernel density estimate of its samples", "statement": "After importance_sample of a Metropolis-Hastings, rejection, nested or multi-nested sampler returned, prob of the sampler is the average of n_samples_kde normal densities with variance kde_bw in every coordinate centred at returned samples, log_prob is its logarithm, and it is a probability density.", "quantifier": "every sampler state, target, random outcome and positive bandwidth", "why_tests_cant": "All histories; a statement about a density at all points and an integral over the whole space.", "anchors": ["ais_benchmarks/sampling_methods/base.py::CMixtureSamplingMethod._update_model", "ais_benchmarks/sampling_methods/base.py::CMixtureSamplingMethod.prob", "ais_benchmarks/sampling_methods/base.py::CMixtureSamplingMethod.log_prob", "ais_benchmarks/sampling_methods/rejection.py::CRejectionSampling.prob"]}
{"id": "C98", "title": "The density reported by a population sampler is a probability density at every time", "statement": "Whatever calls were made before, prob of a DM-AIS, layered AIS or M-PMC sampler is positive everywhere, has total mass one, and is the weighted sum of the normal densities of its current proposals.", "quantifier": "every number of proposals, positive initial variance, history of calls and random outcomes", "why_tests_cant": "All reachable states; positive definiteness of every adapted covariance and integrals over the space.", "anchors": ["ais_benchmarks/sampling_methods/dm_ais.py::CDeterministicMixtureAIS", "ais_benchmarks/sampling_methods/layered_ais.py::CLayeredAIS", "ais_benchmarks/sampling_methods/m_pmc.py::CMixturePMC.adapt", "ais_benchmarks/sampling_methods/base.py::CMixtureSamplingMethod.prob"]}
{"id": "C75", "title": "The default integral of a distribution is an unbiased estimate", "statement": "integral(a, b, nsamples) of a distribution without its own implementation returns, for nsamples > 0, a number between 0 and the volume of the box times the largest density on it; it is exact when the density is constant on the box; and its expected value is the integral of the density over the box.", "quantifier": "every dimension, box, positive number of samples, non-negative measurable density and random outcome", "why_tests_cant": "A statement about the law of the result (the envelope height is itself random) and about all densities.", "anchors": ["ais_benchmarks/distributions/distributions.py::CDistribution.integral"]}
{"id": "C90", "title": "The density HiDaisee reports follows the estimated mass of its regions", "statement": "After importance_sample, prob of a HiDaisee sampler is a probability density that vanishes outside the space; on each region of the partition it is constant and proportional to the average target density over the samples in that region (so each region has probability proportional to volume times average), and log_prob is its logarithm.", "quantifier": "every dimension, space, non-negative target, history of calls, tuning parameters and random outcomes", "why_tests_cant": "All partitions that can arise; a statement about all points and an integral over the space.", "anchors": ["ais_benchmarks/sampling_methods/hi_daisee.py::CHiDaiseeSampling._update_model", "ais_benchmarks/sampling_methods/hi_daisee.py::CHiDaiseeSampling._get_weights_nodes", "ais_benchmarks/sampling_methods/hi_daisee.py::CHiDaiseeTree.split", "ais_benchmarks/sampling_methods/base.py::CMixtureSamplingMethod.prob"]}
{"id": "C97", "title": "Setting a likelihood function of a distribution sets both prob and log_prob", "statement": "After set_likelihood_f(f) on a distribution evaluated by the base class, prob returns f and log_prob returns log f (as the documentation says: the function is used to compute both); symmetrically for set_loglikelihood_f.", "quantifier": "every distribution object, batch function, array of points and sequence of setter calls", "why_tests_cant": "All histories of setter calls and all functions.", "anchors": ["ais_benchmarks/distributions/distributions.py::CDistribution.set_likelihood_f", "ais_benchmarks/distributions/distributions.py::CDistribution.set_loglikelihood_f", "ais_benchmarks/distributions/distributions.py::CDistribution.prob", "ais_benchmarks/distributions/distributions.py::CDistribution.log_prob"]}
{"id": "C99", "title": "The delta distribution is concentrated in its centre", "statement": "sample(n) returns n copies of the centre, prob is infinite at the centre and 0 at every other point, log_prob is its logarithm, and integral(a,b) is 1 exactly if the centre lies in the box.", "quantifier": "every dimension, centre, batch of points, box and n", "why_tests_cant": "All points and boxes, including points arbitrarily close to the centre.", "anchors": ["ais_benchmarks/distributions/parametric/CMultivariateDelta.py::CMultivariateDelta"]}
{"id": "C100", "title": "The volume of a bounding ellipsoid is the volume of the region it describes", "statement": "The volume that multi-nested sampling computes for an ellipsoid with covariance matrix S (and compares when it decides about splitting clusters) is the Lebesgue measure of the set of points within one standard deviation, {x : (x-c)' S^-1 (x-c) <= 1}.", "quantifier": "every dimension, centre and positive definite covariance", "why_tests_cant": "A statement about a measure of a set in every dimension.", "anchors": ["ais_benchmarks/sampling_methods/multi_nested.py::CEllipsoid"]}
{"id": "C101", "title": "Tree pyramid sampling with the mixture scheme delivers the samples asked for", "statement": "With method 'mixture' or 'dm' a call of importance_sample(target, n) returns at least n samples with as many weights, unless the time limit passes.", "quantifier": "every box, target density, number of samples, history of earlier calls and random draws", "why_tests_cant": "A statement about every history of calls and every outcome of the generator; the loop has no bound known in advance.", "anchors": ["ais_benchmarks/sampling_methods/tree_pyramid.py::CTreePyramidSampling.importance_sample_mixture", "ais_benchmarks/sampling_methods/tree_pyramid.py::CTreePyramidSampling.find_unique", "ais_benchmarks/sampling_methods/tree_pyramid.py::CTreePyramid.find"]}
{"id": "C102", "title": "Weights of the mixture scheme are target over mixture density", "statement": "With method 'mixture' or 'dm' the weight of a returned sample is the target density at the sample divided by the density the sample was drawn from (up to a common normalisation), in particular positive and finite for a positive finite target.", "quantifier": "every box, positive finite target density, number of samples and random draws", "why_tests_cant": "A statement about all targets and all random draws.", "anchors": ["ais_benchmarks/sampling_methods/tree_pyramid.py::CTreePyramidSampling.importance_sample_mixture", "ais_benchmarks/sampling_methods/tree_pyramid.py::CTreePyramidSampling.prob", "ais_benchmarks/sampling_methods/tree_pyramid.py::CTreePyramidSampling.resample"]}
{"id": "C103", "title": "Leaf resampling with the normal kernel gives importance weights", "statement": "With kernel 'normal' and leaf resampling, the normalised weights of the leaves are proportional to the target density at the new sample divided by the density that sample was drawn from.", "quantifier": "every box, reachable tree, positive finite target density and random draws", "why_tests_cant": "A statement about the law of the new samples and about all trees, targets and draws; a test on one tree cannot see a wrong factor that depends on the size of the leaves.", "anchors": ["ais_benchmarks/sampling_methods/tree_pyramid.py::CTreePyramidSampling.resample", "ais_benchmarks/sampling_methods/tree_pyramid.py::CTreePyramid"]}
{"id": "C104", "title": "The normal kernel is the documented one", "statement": "With kernel 'normal' a node with center c and radius r stands for the normal distribution with mean c and standard deviation r in every coordinate: this is the distribution its samples are drawn from, the distribution of the resampled points and the component of the reported density.", "quantifier": "every dimension, center and radius", "why_tests_cant": "An equality of densities and laws for all radii.", "anchors": ["ais_benchmarks/sampling_methods/tree_pyramid.py::CTreePyramidNode", "ais_benchmarks/sampling_methods/tree_pyramid.py::CTreePyramidSampling.resample", "ais_benchmarks/sampling_methods/tree_pyramid.py::CTreePyramidSampling._update_model"]}
{"id": "C105", "title": "Uniform and normal samples follow the reported density", "statement": "The law of a point returned by sample() of the uniform and of the normal distribution is the one whose density prob() reports.", "quantifier": "every dimension, center and positive radius; every mean and positive definite covariance, whichever singular value decomposition the linear algebra library returns", "why_tests_cant": "An equality of measures; a finite number of samples can only fail to contradict it.", "anchors": ["ais_benchmarks/distributions/parametric/CMultivariateUniform.py::CMultivariateUniform.sample", "ais_benchmarks/distributions/parametric/CMultivariateUniform.py::CMultivariateUniform.prob", "ais_benchmarks/distributions/parametric/CMultivariateNormal.py::CMultivariateNormal.sample", "ais_benchmarks/distributions/parametric/CMultivariateNormal.py::CMultivariateNormal.log_prob"]}
{"id": "C106", "title": "Mixture samples are independent and follow the mixture density", "statement": "The n points returned by sample(n) of a mixture, or of a Gaussian mixture, are independent and each follows the density prob() reports for the mixture.", "quantifier": "every number of components, components whose own samples follow their densities, usable weights, number of samples", "why_tests_cant": "A statement about the joint law of all samples, for all mixtures.", "anchors": ["ais_benchmarks/distributions/mixture/CMixtureModel.py::CMixtureModel.sample", "ais_benchmarks/distributions/mixture/CMixtureModel.py::CMixtureModel.prob", "ais_benchmarks/distributions/mixture/CGaussianMixtureModel.py::CGaussianMixtureModel.sample"]}
{"id": "C107", "title": "Whatever the constructor accepts, samples follow the reported density", "statement": "For every exponential or normal distribution that can be constructed, the law of the samples is the one whose density prob() reports.", "quantifier": "every mean of the exponential distribution, every covariance accepted by the normal distribution", "why_tests_cant": "An equality of measures over all accepted parameters.", "anchors": ["ais_benchmarks/distributions/parametric/CMultivariateExponential.py::CMultivariateExponential", "ais_benchmarks/distributions/parametric/CMultivariateNormal.py::CMultivariateNormal"]}
{"id": "C108", "title": "sample(n) returns an n by dims array", "statement": "sample(n) returns an array with n rows and as many columns as the distribution has dimensions, for every distribution of the package.", "quantifier": "every distribution, parameters, number of samples and random draws", "why_tests_cant": "Ranges over all distributions, sizes and random draws; mixtures fail only for some sequences of selected components.", "anchors": ["ais_benchmarks/distributions/distributions.py::CDistribution.sample", "ais_benchmarks/distributions/parametric/CMultivariateExponential.py::CMultivariateExponential.sample", "ais_benchmarks/distributions/mixture/CMixtureModel.py::CMixtureModel.sample"]}
{"id": "C109", "title": "The tree pyramid refines the regions of largest estimated mass first", "statement": "In every iteration of the sampling loop only leaves that have enough samples and an effective sample size not above the target are split, some leaf is split whenever one qualifies, and no qualifying leaf is passed over in favour of a leaf with a smaller importance volume (estimated value times volume of its box).", "quantifier": "every box, configuration, target, history of calls, sequence of random draws", "why_tests_cant": "The order depends on cached values that must stay up to date through every insertion, resampling and split; a test sees single trees.", "anchors": ["ais_benchmarks/sampling_methods/tree_pyramid.py::CTreePyramidSampling._expand_nodes", "ais_benchmarks/sampling_methods/tree_pyramid.py::CTreePyramidSampling.importance_sample_simple"]}
{"id": "C110", "title": "A sampling call ends when its time limit has passed", "statement": "importance_sample(target, n, timeout) starts no further work once the limit has passed: it returns (or raises) after the step in progress, for every sampling method.", "quantifier": "every sampler, configuration, target, number of samples and every sequence of clock readings", "why_tests_cant": "Needs every possible sequence of clock readings, including the limit passing at any iteration.", "anchors": ["ais_benchmarks/sampling_methods/base.py::CSamplingMethod.importance_sample", "ais_benchmarks/sampling_methods/nested.py::CNestedSampling.resample", "ais_benchmarks/sampling_methods/multi_nested.py::CMultiNestedSampling.resample", "ais_benchmarks/sampling_methods/hi_daisee.py::CHiDaiseeSampling.importance_sample"]}
{"id": "C111", "title": "The KL metric converges to the KL divergence", "statement": "As the number of evaluation samples grows, the value compute(p, q, nsamples) of the KL metric converges to the Kullback-Leibler divergence of p from q, for almost every sequence of random numbers.", "quantifier": "every pair of densities, support box of p, dimension, and almost every sequence of random numbers", "why_tests_cant": "A limit over an unbounded number of samples and an almost sure statement over all random sequences.", "anchors": ["ais_benchmarks/metrics/divergences.py::CDivergence.compute", "ais_benchmarks/metrics/divergences.py::CKLDivergence.compute_from_samples", "ais_benchmarks/metrics/divergences.py::CKLDivergence.compute_from_log_probs"]}
{"id": "C112", "title": "The JSD metric converges to the Jensen-Shannon divergence", "statement": "As the number of evaluation samples grows, the value compute(p, q, nsamples) of the JSD metric converges to the Jensen-Shannon divergence of p and q in units of log 2, for almost every sequence of random numbers.", "quantifier": "every pair of densities, support box of p, dimension, and almost every sequence of random numbers", "why_tests_cant": "A limit over an unbounded number of samples and an almost sure statement over all random sequences.", "anchors": ["ais_benchmarks/metrics/divergences.py::CDivergence.compute", "ais_benchmarks/metrics/divergences.py::CJSDivergence.compute_from_samples"]}
{"id": "C113", "title": "The expected value metric converges to the squared distance of the means", "statement": "As the number of evaluation samples grows, the value compute(p, q, nsamples) of the expected value metric converges to the squared distance between the means of p and q, for almost every sequence of random numbers.", "quantifier": "every pair of densities, support box of p, dimension, and almost every sequence of random numbers", "why_tests_cant": "A limit over an unbounded number of samples and an almost sure statement over all random sequences.", "anchors": ["ais_benchmarks/metrics/statistics.py::CExpectedValueMSE.compute", "ais_benchmarks/metrics/statistics.py::CExpectedValueMSE.compute_from_samples"]}
{"id": "C114", "title": "The default integral converges to the integral of the density", "statement": "As the number of samples grows, integral(a, b, nsamples) converges to the integral of the density over the box from a to b, for almost every sequence of random numbers, although the sampling height is itself estimated from the samples.", "quantifier": "every measurable nonnegative density bounded on the box, box and dimension, almost every sequence of random numbers", "why_tests_cant": "A limit over an unbounded number of samples; the height used for the hit-or-miss test depends on all samples.", "anchors": ["ais_benchmarks/distributions/distributions.py::CDistribution.integral"]}
{"id": "C115", "title": "Layered AIS is consistent", "statement": "Start layered AIS fresh and ask for n samples of a target it only knows up to a factor. As n grows the call returns and the weighted mean of any function over the returned samples converges, with probability one, to the expectation of the function under the normalised target, although the proposals move and the weights of earlier rounds refer to earlier proposals. The requirement is that the importance weights have bounded variance for proposals centred in the search space, which holds for every bounded target on a bounded region.", "quantifier": "every dimension, N*K >= 2, L, search space, normal proposals, target, test function, law of the Metropolis numbers, and almost every sequence of random numbers", "why_tests_cant": "An almost sure limit over infinitely many dependent rounds.", "anchors": ["ais_benchmarks/sampling_methods/layered_ais.py::CLayeredAIS.importance_sample", "ais_benchmarks/sampling_methods/layered_ais.py::CLayeredAIS.resample", "ais_benchmarks/sampling_methods/layered_ais.py::CLayeredAIS.mcmc_mh"]}
{"id": "C116", "title": "DM-AIS can be asked for any number of samples", "statement": "With probability one, DM-AIS without time limit delivers however many samples of a target with a positive finite integral it is asked for.", "quantifier": "every such target, dimension, N*K >= 2, search space, normal proposals, and almost every sequence of random numbers", "why_tests_cant": "A statement about unbounded runs that holds or fails with probability one; short runs succeed with high probability.", "anchors": ["ais_benchmarks/sampling_methods/dm_ais.py::CDeterministicMixtureAIS.importance_sample", "ais_benchmarks/sampling_methods/dm_ais.py::CDeterministicMixtureAIS.resample"]}
{"id": "C117", "title": "The tree pyramid sampler is consistent", "statement": "Ask a new tree pyramid sampler (simple method, haar kernel, ESS target above 1) for n samples of a target known up to a factor that is continuous and positive on the region it covers. For n large enough the call returns after finitely many iterations, whatever the random numbers are, and the weighted mean of any continuous function over the returned sample is as close as wanted to the expectation of the function under the normalised target. How large n has to be depends on the accuracy, not on the random numbers.", "quantifier": "every dimension, search space, continuous positive target, continuous test function, accuracy, n_min, parallel setting, with or without leaf resampling, and every sequence of random numbers in (0, 1)", "why_tests_cant": "A limit of an adaptive refinement that has to hold for every target and every sequence of draws; a test sees one n and one seed.", "anchors": ["ais_benchmarks/sampling_methods/tree_pyramid.py::CTreePyramidSampling.importance_sample_simple", "ais_benchmarks/sampling_methods/tree_pyramid.py::CTreePyramidSampling._self_normalize", "ais_benchmarks/sampling_methods/tree_pyramid.py::CTreePyramidSampling._get_samples"]}
{"id": "C118", "title": "The tree pyramid sampler finds all the mass of a target that vanishes somewhere", "statement": "Ask a new tree pyramid sampler (simple method, haar kernel, ESS target above 1) for n samples of a continuous non-negative target with positive integral that is 0 on part of the search space. As n grows the weighted mean of any continuous function over the returned sample approaches the expectation of the function under the normalised target.", "quantifier": "every dimension, search space, continuous non-negative target with positive integral, continuous test function, accuracy, configuration and every sequence of random numbers in (0, 1)", "why_tests_cant": "A region lost after one unlucky draw looks like a converged estimate: no number of samples reveals it, and most seeds do not show it.", "anchors": ["ais_benchmarks/sampling_methods/tree_pyramid.py::CTreePyramidSampling.importance_sample_simple", "ais_benchmarks/sampling_methods/tree_pyramid.py::CTreePyramidSampling._self_normalize", "ais_benchmarks/sampling_methods/tree_pyramid.py::CTreePyramidSampling._expand_nodes"]}
{"id": "C119", "title": "The weights of the tree pyramid are target times cell volume, however often it is called", "statement": "Successive calls on the same tree pyramid sampler (simple method, haar kernel, ESS target above 1) with the same target: after every call the covered region is divided into one cell per returned point, the point lies in its cell, and its weight is the target value times the volume of the cell, divided by the sum of these products.", "quantifier": "every dimension, search space, non-negative target, configuration, number and size of the calls, time limit and sequence of random numbers in (0, 1)", "why_tests_cant": "Needs the relation between cached weights and cells after arbitrary sequences of calls; a test compares a few weights after one call.", "anchors": ["ais_benchmarks/sampling_methods/tree_pyramid.py::CTreePyramidSampling.importance_sample_simple", "ais_benchmarks/sampling_methods/tree_pyramid.py::CTreePyramidSampling._update_model", "ais_benchmarks/sampling_methods/tree_pyramid.py::CTreePyramidSampling._self_normalize", "ais_benchmarks/sampling_methods/tree_pyramid.py::CTreePyramidSampling.resample"]}
{"id": "C120", "title": "M-PMC weights of all batches are on the same scale", "statement": "Mixture population Monte Carlo: for any two returned samples the ratio of their weights is the ratio of their importance weights, that is of target density divided by the density the sampler reported when the sample was drawn.", "quantifier": "every dimension, search space, number of components and batch size, initial sigma, target log density, number of calls and iterations and all random outcomes, as long as no weight is undefined", "why_tests_cant": "Relates weights of iterations that used different proposals; tests look at the shape and the sum of the weights.", "anchors": ["ais_benchmarks/sampling_methods/m_pmc.py::CMixturePMC.importance_sample", "ais_benchmarks/sampling_methods/m_pmc.py::CMixturePMC.adapt"]}
{"id": "C121", "title": "HiDaisee samples and HiDaisee density agree about the mass of every region", "statement": "After every call of HiDaisee that found mass, the total weight of the returned samples in a leaf region, divided by the total weight of all returned samples, is the probability of that region under the density the sampler reports.", "quantifier": "every dimension, search space, configuration, non-negative target density, sequence of calls and all random outcomes", "why_tests_cant": "Compares two outputs of the sampler over all reachable trees; a test sees a few trees.", "anchors": ["ais_benchmarks/sampling_methods/hi_daisee.py::CHiDaiseeSampling.importance_sample", "ais_benchmarks/sampling_methods/hi_daisee.py::CHiDaiseeSampling._get_samples", "ais_benchmarks/sampling_methods/hi_daisee.py::CHiDaiseeSampling._update_model"]}
{"id": "C122", "title": "DM-AIS and layered AIS weights of all batches are on the same scale", "statement": "Whatever number of calls and iterations produced them, the weights DM-AIS and layered AIS return for any two samples, of the same batch or of different batches, are in the proportion target density divided by the density the sampler reported just before the sample was drawn; failed iterations leave this true.", "quantifier": "every dimension, search space, number of proposals and batch size, positive proposal density, non-negative target (layered AIS: not zero at all samples), number of calls and iterations and all random outcomes", "why_tests_cant": "Relates weights of iterations that used different proposals; tests look at the shape and the sum of the weights.", "anchors": ["ais_benchmarks/sampling_methods/dm_ais.py::CDeterministicMixtureAIS.importance_sample", "ais_benchmarks/sampling_methods/layered_ais.py::CLayeredAIS.importance_sample"]}
{"id": "C123", "title": "The acceptance rate is a fraction between 0 and 1", "statement": "For every sampling method, whenever it holds samples get_acceptance_rate() returns a number that is positive and at most 1: no method holds more samples than the points it counted as drawn from its proposals. The inherited implementation returns no number while there are no samples.", "quantifier": "every method, every configuration, target, random outcome and clock, every object reachable by construction, reset and any number of calls, also calls that raise or are still running where the method keeps its object usable", "why_tests_cant": "the rate depends on two counters that are updated in different places of every method; a test compares them for one run", "anchors": ["ais_benchmarks/sampling_methods/base.py::CSamplingMethod.get_acceptance_rate", "ais_benchmarks/sampling_methods/tree_pyramid.py::CTreePyramidSampling.get_acceptance_rate", "ais_benchmarks/sampling_methods/metropolis_hastings.py::CMetropolisHastings.importance_sample", "ais_benchmarks/sampling_methods/layered_ais.py::CLayeredAIS.importance_sample", "ais_benchmarks/sampling_methods/dm_ais.py::CDeterministicMixtureAIS.importance_sample", "ais_benchmarks/sampling_methods/rejection.py::CRejectionSampling.importance_sample", "ais_benchmarks/sampling_methods/nested.py::CNestedSampling.importance_sample"]}
{"id": "C124", "title": "The support a distribution reports holds most of its mass", "statement": "The box returned by support() of a distribution whose support was not chosen by the caller contains more than half of the mass of the density evaluated by prob; the metrics draw their points from this box.", "quantifier": "every uniform distribution, every normal distribution built without a support, exponential distributions of every mean and dimension, the Laplace, Maxwell, symmetric Pareto and banana densities; for normal distributions also after set_moments and for a second distribution built from the same dictionary", "why_tests_cant": "Mass of a region of a continuum, in every dimension and for every covariance; the loss for exponential distributions starts at dimension 38.", "anchors": ["ais_benchmarks/distributions/distributions.py::CDistribution.support", "ais_benchmarks/distributions/parametric/CMultivariateNormal.py::CMultivariateNormal.__init__", "ais_benchmarks/distributions/parametric/CMultivariateNormal.py::CMultivariateNormal.set_moments", "ais_benchmarks/distributions/parametric/CMultivariateExponential.py::CMultivariateExponential.__init__", "ais_benchmarks/distributions/parametric/CMultivariateUniform.py::CMultivariateUniform.__init__", "ais_benchmarks/distributions/benchden/d03_maxwell.py::BenchDenMaxwell.__init__", "ais_benchmarks/distributions/benchden/d04_laplace.py::BenchDenLaplace.__init__", "ais_benchmarks/distributions/benchden/d10_symmetric_pareto.py::BenchDenSymmetricPareto.__init__", "ais_benchmarks/distributions/rare/banana2d.py::Banana2D.__init__"]}
{"id": "C125", "title": "Rejection sampling follows the target exactly when the scaled proposal dominates it", "statement": "Whatever scaling constant the user chooses, the samples returned by rejection sampling are independent with density proportional to min(target, scaling*proposal). They follow the target if and only if scaling*proposal >= target almost everywhere, or the proposal is proportional to the target where the target is positive.", "quantifier": "every target density with finite mass, proposal density and positive scaling whose overlap has positive mass, every earlier history of the object, every number of samples", "why_tests_cant": "The scaling constant is a guess of the user; whether a wrong guess biases the samples is a statement about laws on a continuum.", "anchors": ["ais_benchmarks/sampling_methods/rejection.py::CRejectionSampling.importance_sample"]}
{"id": "C126", "title": "The methods search the box the target reports", "statement": "Every sampling method built by the benchmark for a target receives as its search space exactly the lower and upper corner reported by the support of the target.", "quantifier": "every target support with finite real corners, every dimension", "why_tests_cant": "The corners travel through a printed text; which values survive printing depends on the magnitudes of all coordinates and on the dimension, and a test samples a few of them.", "anchors": ["ais_benchmarks/benchmark/CBenchmark.py::CBenchmark.load_methods", "ais_benchmarks/benchmark/CBenchmark.py::CBenchmark.run"]}
{"id": "C127", "title": "A seeded benchmark can be repeated", "statement": "Two runs of the benchmark with the same files and the same non negative seed end in the same way and write the same result file up to the time and memory columns, whatever the clock, the memory use and the earlier use of the random generator are.", "quantifier": "every configuration with a non negative seed, every list of methods and targets, every pair of initial worlds", "why_tests_cant": "Equality of two executions under all clocks and histories; a test repeats a run on one machine.", "anchors": ["ais_benchmarks/benchmark/CBenchmark.py::CBenchmark.run", "ais_benchmarks/benchmark/CBenchmark.py::CBenchmark.evaluate_method", "ais_benchmarks/benchmark/CBenchmark.py::CBenchmark.load_config", "ais_benchmarks/benchmark/CBenchmark.py::CBenchmark.write_results"]}
{"id": "C128", "title": "The plotted curve is the average over the repetitions", "statement": "For every method and target the curve drawn for a metric has at each sample count found in the result file the average of the values of the metric in the rows of that method, target and sample count, whatever the order of the rows and the other rows are.", "quantifier": "every result file with finite values, every method, target and metric", "why_tests_cant": "A plot is inspected by eye; the claim quantifies over all files, row orders and numbers of sample counts.", "anchors": ["ais_benchmarks/benchmark/CBenchmark.py::CBenchmark.make_2d_plot", "ais_benchmarks/benchmark/CBenchmark.py::CBenchmark.make_plots"]}
{"id": "C129", "title": "The shaded band is the spread of the repetitions", "statement": "The half height of the band drawn around a curve at a sample count is the standard deviation of the metric over the repetitions.", "quantifier": "every result file with finite values, every method, target and metric", "why_tests_cant": "A plot is inspected by eye; the claim quantifies over all files.", "anchors": ["ais_benchmarks/benchmark/CBenchmark.py::CBenchmark.make_2d_plot"]}
{"id": "C130", "title": "Supports of generated mixtures hold most of the mass", "statement": "The support reported by a mixture from generateRandomGMM or generateEggBoxGMM holds more than half of the probability mass of the mixture.", "quantifier": "all dimensions, spaces, numbers of components, variance bounds, lattices and outcomes of the random generator", "why_tests_cant": "the mass in a box under a mixture is an integral over unboundedly many parameters; a sampled estimate for a few mixtures says nothing about the others, and the code has no function that could report it", "anchors": ["ais_benchmarks/utils/misc.py::generateRandomGMM", "ais_benchmarks/utils/misc.py::generateEggBoxGMM", "ais_benchmarks/distributions/mixture/CGaussianMixtureModel.py::CGaussianMixtureModel.__init__"]}
{"id": "C131", "title": "Long runs of Metropolis-Hastings describe the target", "statement": "The averages of a bounded function over the samples returned by importance_sample of the Metropolis-Hastings sampler converge almost surely to its mean under the target as the number of requested samples grows.", "quantifier": "all dimensions, targets, proposals, search spaces, numbers of steps between samples and of burn in steps, object states and bounded functions; almost all outcomes of the random generator", "why_tests_cant": "the limit of averages along an infinite dependent random sequence cannot be observed in finitely many runs, and a bias of the limit is indistinguishable from slow mixing", "anchors": ["ais_benchmarks/sampling_methods/metropolis_hastings.py::CMetropolisHastings.importance_sample", "ais_benchmarks/sampling_methods/metropolis_hastings.py::CMetropolisHastings.mcmc", "ais_benchmarks/sampling_methods/metropolis_hastings.py::CMetropolisHastings.mcmc_step"]}
{"id": "C132", "title": "Long runs of rejection sampling describe the target", "statement": "If scaling times proposal density dominates the target, then with probability one every request for samples of the rejection sampler returns, holds exactly the number of samples asked for however the requests are split over calls, and the average of a function over the samples tends to its expectation under the normalised target as the number of samples grows. For any other scaling constant the limit is the expectation under the smaller of target and scaled proposal.", "quantifier": "all dimensions, targets, proposals, scaling constants, functions with finite mean and all ways to split the request over calls; almost all outcomes of the random generator; runs not interrupted by the clock", "why_tests_cant": "the limit of averages along an infinite random sequence cannot be observed in finitely many runs, and the number of iterations of a call is not bounded", "anchors": ["ais_benchmarks/sampling_methods/rejection.py::CRejectionSampling.importance_sample"]}
{"id": "C133", "title": "The acceptance rate of rejection sampling estimates the probability of acceptance", "statement": "The acceptance rate reported by the rejection sampler after a request for n samples tends to the probability that a proposed point is accepted as n grows.", "quantifier": "all dimensions, targets, proposals and scaling constants for which points can be accepted; almost all outcomes of the random generator", "why_tests_cant": "the limit of a rate along an infinite random sequence cannot be observed in finitely many runs, and a rate that decreases like one over a logarithm looks constant in a test", "anchors": ["ais_benchmarks/sampling_methods/rejection.py::CRejectionSampling.importance_sample", "ais_benchmarks/sampling_methods/base.py::CSamplingMethod.get_acceptance_rate"]}
{"id": "C134", "title": "No single sample of nested sampling keeps a fixed share of the weight", "statement": "For a target with values between two positive numbers the share of the total weight that one sample of nested sampling holds becomes small as the number of live points and the number of samples grow.", "quantifier": "all dimensions, targets with values between two positive numbers, numbers of live points and of samples, sequences of calls, random outcomes and clock readings", "why_tests_cant": "the share has to be bounded for every number of live points and of samples; single runs show one share each", "anchors": ["ais_benchmarks/sampling_methods/nested.py::CNestedSampling.importance_sample"]}
{"id": "C135", "title": "Averages over nested sampling settle as more samples are requested", "statement": "For a target with values between m > 0 and M, the average of a function bounded by B over the weighted samples returned by a call of nested or multi-nested sampling and its average after any later calls on the same object differ by at most 2 B (M/m) exp(-(n-1)/N), where n is the number of samples the first call returned and N the number of live points. Hence the averages converge along any sequence of calls that ask for more and more samples.", "quantifier": "all dimensions, targets with values between two positive numbers, bounded functions, numbers of live points, sequences of calls, random outcomes and clock readings", "why_tests_cant": "the bound is about all later calls, of which there are infinitely many, and the limit cannot be observed", "anchors": ["ais_benchmarks/sampling_methods/nested.py::CNestedSampling.importance_sample", "ais_benchmarks/sampling_methods/multi_nested.py::CMultiNestedSampling.importance_sample"]}
{"id": "C136", "title": "The result file gives back what was measured", "statement": "If the configured metrics are known ones other than NESS, without repetitions, the names of method and target contain no blanks and the reported NESS lies between -999 and 9999 (or is infinite or NaN), then every line of the result file, read with blanks as separators, gives back the number of dimensions, the number of samples and the three counters exactly, the names, every metric value within 5e-6 in the column the header names, and NESS and acceptance rate within 5e-4; infinite values and NaN come back as such.", "quantifier": "all benchmark configurations of known metrics, methods, targets, worlds and all measured values, finite or not; every rule for rounding ties", "why_tests_cant": "all numbers of any size and sign have to survive formatting, joining and splitting; a test reads back a few lines", "anchors": ["ais_benchmarks/benchmark/CBenchmark.py::CBenchmark.write_results", "ais_benchmarks/benchmark/CBenchmark.py::CBenchmark.make_plots"]}
{"id": "C137", "title": "More samples bring the reported density closer to the target", "statement": "As the number of samples requested from a Metropolis-Hastings, rejection, nested or multi-nested sampler grows, the density it reports (prob, for rejection sampling the exponential of log_prob) approaches the target density, so that the divergences measured by the benchmark shrink.", "quantifier": "all dimensions, bandwidths, numbers of kernels, requested numbers of samples and random outcomes", "why_tests_cant": "a limit in the number of samples, over all targets; a test compares two numbers of samples on one target", "anchors": ["ais_benchmarks/sampling_methods/base.py::CMixtureSamplingMethod._update_model", "ais_benchmarks/sampling_methods/base.py::CMixtureSamplingMethod.prob", "ais_benchmarks/sampling_methods/base.py::CMixtureSamplingMethod.log_prob", "ais_benchmarks/sampling_methods/rejection.py::CRejectionSampling.importance_sample", "ais_benchmarks/sampling_methods/metropolis_hastings.py::CMetropolisHastings.importance_sample", "ais_benchmarks/sampling_methods/nested.py::CNestedSampling.importance_sample", "ais_benchmarks/sampling_methods/multi_nested.py::CMultiNestedSampling.importance_sample"]}
{"id": "C138", "title": "Averages over the samples of HiDaisee tend to the right value", "statement": "Ask a new HiDaisee sampler for more and more samples of a target density that is positive on the search box. With probability one the calls return and the weighted average of a function over the returned samples tends to the mean of the function under the normalised target.", "quantifier": "all boxes, parameters, positive targets, integrable functions, and almost all random outcomes", "why_tests_cant": "a limit in the number of samples with probability one; a test sees one finite run, in which a biased average looks like noise", "anchors": ["ais_benchmarks/sampling_methods/hi_daisee.py::CHiDaiseeSampling.importance_sample", "ais_benchmarks/sampling_methods/hi_daisee.py::CHiDaiseeSampling._get_samples", "ais_benchmarks/sampling_methods/hi_daisee.py::CHiDaiseeTree.split", "ais_benchmarks/sampling_methods/hi_daisee.py::CHiDaiseeNode.add_sample"]}
{"id": "C139", "title": "No sampler looks at the target more often than it reports", "statement": "The number of target evaluations a sampler reports (get_stats, benchmark result file) grows in every importance_sample call at least by the number of points at which the call looked at the target: the outcome of a call that reports k new evaluations is determined by the values of the target at no more than k points.", "quantifier": "all samplers, configurations, targets, histories of the object, random outcomes and clock readings", "why_tests_cant": "a statement about all other targets that agree at k points: a test compares the outcome for a handful of targets, and a counter that is too small by a few evaluations looks plausible", "anchors": ["ais_benchmarks/sampling_methods/base.py::CSamplingMethod.get_stats", "ais_benchmarks/sampling_methods/rejection.py::CRejectionSampling.importance_sample", "ais_benchmarks/sampling_methods/metropolis_hastings.py::CMetropolisHastings.importance_sample", "ais_benchmarks/sampling_methods/nested.py::CNestedSampling.importance_sample", "ais_benchmarks/sampling_methods/multi_nested.py::CMultiNestedSampling.importance_sample", "ais_benchmarks/sampling_methods/dm_ais.py::CDeterministicMixtureAIS.importance_sample", "ais_benchmarks/sampling_methods/layered_ais.py::CLayeredAIS.importance_sample", "ais_benchmarks/sampling_methods/m_pmc.py::CMixturePMC.importance_sample", "ais_benchmarks/sampling_methods/hi_daisee.py::CHiDaiseeSampling.importance_sample", "ais_benchmarks/sampling_methods/tree_pyramid.py::CTreePyramidSampling.importance_sample_simple", "ais_benchmarks/sampling_methods/tree_pyramid.py::CTreePyramidSampling.importance_sample_mixture"]}
{"id": "C140", "title": "The statistics of a tree pyramid sampler describe the samples it handed back", "statement": "After an importance_sample call of CTreePyramidSampling, get_stats reports the number of samples the call returned, and as NESS the effective share of the returned weights, a number between 1/n and 1.", "quantifier": "all configurations, targets, spaces, histories of the object and random outcomes", "why_tests_cant": "an infinite or wrong effective sample size in a dictionary of statistics looks like a property of the run; only a statement about all states shows that the entry never depends on the samples", "anchors": ["ais_benchmarks/sampling_methods/tree_pyramid.py::CTreePyramidSampling.get_stats", "ais_benchmarks/sampling_methods/tree_pyramid.py::CTreePyramidSampling.get_NESS", "ais_benchmarks/sampling_methods/base.py::CSamplingMethod.get_approx_NESS"]}
{"id": "C141", "title": "A benchmark object can be used again", "statement": "CBenchmark.run gives the same result file, plots, exceptions and random generator state whatever the object was used for before: earlier runs with other files, finished or ended by an exception, leave no trace.", "quantifier": "all benchmark, methods and configuration files, targets, methods, metrics, states of the benchmark object and of the world (same time limit attribute)", "why_tests_cant": "the claim compares every run with the same run after every possible history of the object, including runs that ended in the middle of loading a file", "anchors": ["ais_benchmarks/benchmark/CBenchmark.py::CBenchmark.run", "ais_benchmarks/benchmark/CBenchmark.py::CBenchmark.load_config", "ais_benchmarks/benchmark/CBenchmark.py::CBenchmark.load_benchmark", "ais_benchmarks/benchmark/CBenchmark.py::CBenchmark.load_methods", "ais_benchmarks/benchmark/CBenchmark.py::CBenchmark.make_plots"]}
{"id": "C142", "title": "The documented way of running a benchmark runs the given files", "statement": "Called as documented in README.md, with a benchmark, a methods and a configuration file in the documented formats, the benchmark script evaluates the methods of the methods file on the targets of the benchmark file, in the order of the file and with the parameters of their entries.", "quantifier": "all file names, all benchmark files with any number of targets, all environments", "why_tests_cant": "a script that silently runs its default files instead of the given ones produces plausible results; the claim is about all file names and file contents", "anchors": ["ais_benchmarks/benchmark/CBenchmark.py::CBenchmark.load_benchmark", "ais_benchmarks/benchmark/CBenchmark.py::CBenchmark.load_config", "ais_benchmarks/benchmark/CBenchmark.py::CBenchmark.load_methods"]}
{"id": "C143", "title": "Every plot shows the results of one target and has a file of its own", "statement": "A benchmark run with plots leaves, for every target and metric, a plot file that is not overwritten by another plot; the curve of a method in it is drawn from all result rows of that method on that target and from no others.", "quantifier": "all benchmark, methods and configuration files, targets, methods, metrics, states of the benchmark object and random outcomes", "why_tests_cant": "a plot that mixes the rows of two targets looks like any other plot; the claim relates the file names and selected rows of all plots to all evaluations of the run", "anchors": ["ais_benchmarks/benchmark/CBenchmark.py::CBenchmark.make_plots", "ais_benchmarks/benchmark/CBenchmark.py::CBenchmark.make_2d_plot", "ais_benchmarks/benchmark/CBenchmark.py::CBenchmark.run"]}
{"id": "C144", "title": "Plots can be made again from the result file", "statement": "After a run, making the plots separately with the same files, through make_plots with the result file or with the plotting script, draws the same plots of the same methods from the results of that run.", "quantifier": "all benchmark, methods and configuration files, command lines, states of the benchmark object and of the random generator", "why_tests_cant": "a plotting script that reads another result file draws a plausible plot of old data; the claim is about all command lines and file contents", "anchors": ["ais_benchmarks/benchmark/CBenchmark.py::CBenchmark.make_plots", "ais_benchmarks/benchmark/run_plots.py", "ais_benchmarks/benchmark/run_benchmark.py"]}
{"id": "C145", "title": "A distribution saved as a benchmark entry can be loaded again", "statement": "The dictionary a Gaussian mixture gives for a benchmark file, written as an entry of such a file, loads a target with the same dimensions, support and density values.", "quantifier": "all mixtures, whether made from arrays or loaded from a file, all means, covariances, weights and supports", "why_tests_cant": "saving and loading are separate programs that meet only in a text file; that the round trip restores every mixture is a claim about all parameters", "anchors": ["ais_benchmarks/distributions/distributions.py::CDistribution.to_dict", "ais_benchmarks/distributions/mixture/CGaussianMixtureModel.py::CGaussianMixtureModel.to_dict", "ais_benchmarks/benchmark/CBenchmark.py::CBenchmark.load_benchmark"]}
{"id": "C146", "title": "Waiting for a ready distribution returns True", "statement": "wait_for_ready on a distribution that is ready returns True at once; on one that becomes ready before the timeout it returns True then, and otherwise it raises TimeoutError at the first check after the timeout.", "quantifier": "all timeouts, clock readings and sequences of answers of is_ready", "why_tests_cant": "depends on the clock and on when an external process becomes ready; a test observes one schedule", "anchors": ["ais_benchmarks/distributions/distributions.py::CDistribution.wait_for_ready", "ais_benchmarks/distributions/distributions.py::CDistribution.is_ready", "ais_benchmarks/distributions/derived/CGenericNoisyFunction.py"]}
{"id": "C147", "title": "Contour plots show the density they are labelled with", "statement": "The values drawn by the two dimensional contour plots of a target or of an approximation are the density of that distribution at the points of the drawn grid.", "quantifier": "all distributions, supports and resolutions", "why_tests_cant": "pictures are not compared with anything; a plot of another function of the density has the same level sets and looks right", "anchors": ["ais_benchmarks/utils/plot_utils.py::plot_pdf2d", "ais_benchmarks/utils/plot_utils.py::plot_grid_sampled_pdfs", "ais_benchmarks/utils/plot_utils.py::grid_sample_distribution", "ais_benchmarks/benchmark/CBenchmark.py::CBenchmark.evaluate_method"]}
{"id": "C148", "title": "Rejection sampling as shipped follows the target", "statement": "With the parameters of the shipped methods file, the samples returned by rejection sampling are independent draws from the normalised target.", "quantifier": "all targets with a density, search spaces, numbers of samples, states of the sampler and random outcomes", "why_tests_cant": "the samples look plausible for every target; that their law is the target is a statement about all sets of points, which no finite sample settles", "anchors": ["ais_benchmarks/sampling_methods/rejection.py::CRejectionSampling.importance_sample", "ais_benchmarks/sampling_methods/rejection.py::CRejectionSampling", "ais_benchmarks/benchmark/def_methods.yaml"]}
{"id": "C149", "title": "Nonparametric distributions can be made and evaluated", "statement": "A kernel density or nearest neighbour distribution made from samples, weights, a kernel, a bandwidth and a support is an object whose density is the estimate from these samples.", "quantifier": "all parameter dictionaries", "why_tests_cant": "no test constructs these classes; which exceptions all parameter dictionaries give is a case distinction over all of them", "anchors": ["ais_benchmarks/distributions/nonparametric/CKernelDensity.py::CKernelDensity", "ais_benchmarks/distributions/nonparametric/CNearestNeighbor.py::CNearestNeighbor", "ais_benchmarks/distributions/distributions.py::CKernel"]}
{"id": "C150", "title": "An M-PMC adaptation does not make the proposal fit the weighted batch worse", "statement": "After a batch is drawn and weighted, adapting the mixture never lowers the weighted log-likelihood of the batch under the proposal mixture.", "quantifier": "all dimensions, numbers of proposals, reachable states, targets and batches", "why_tests_cant": "a test sees the likelihood of a few batches; the monotonicity is an inequality over all batches and all states that runs can reach", "anchors": ["ais_benchmarks/sampling_methods/m_pmc.py::CMixturePMC.adapt", "ais_benchmarks/sampling_methods/m_pmc.py::CMixturePMC.importance_sample"]}
{"id": "C151", "title": "Results do not depend on the normalisation of the target", "statement": "Multiplying an unnormalised target by a positive constant (adding a constant to its logarithm for the samplers that take a log density) changes nothing a user sees: with the same random draws every call of a sampler returns the same samples with the same normalised weights, holds the same proposals and counters, and raises the same exceptions.", "quantifier": "all positive constants, targets, dimensions, sequences of calls, random outcomes and clocks", "why_tests_cant": "a test compares two runs for one constant and one seed; invariance is a relation between pairs of whole executions, for all constants and all draws", "anchors": ["ais_benchmarks/sampling_methods/dm_ais.py::CDeterministicMixtureAIS.importance_sample", "ais_benchmarks/sampling_methods/layered_ais.py::CLayeredAIS.importance_sample", "ais_benchmarks/sampling_methods/m_pmc.py::CMixturePMC.importance_sample", "ais_benchmarks/sampling_methods/metropolis_hastings.py::CMetropolisHastings.importance_sample", "ais_benchmarks/sampling_methods/nested.py::CNestedSampling.importance_sample", "ais_benchmarks/sampling_methods/multi_nested.py::CMultiNestedSampling.importance_sample", "ais_benchmarks/sampling_methods/hi_daisee.py::CHiDaiseeSampling.importance_sample", "ais_benchmarks/sampling_methods/tree_pyramid.py::CTreePyramidSampling.importance_sample"]}
{"id": "C152", "title": "Moving the problem moves the samples", "statement": "The samplers Metropolis-Hastings, nested, multi-nested, deterministic mixture AIS, layered AIS and HiDaisee have no preferred origin: for the target moved by a vector in the box moved by the same vector, with the same random draws, every call returns the same samples moved by that vector, with the same weights, the same proposals up to the shift, the same evaluation counts and the same exceptions.", "quantifier": "all shifts, targets, boxes, dimensions, parameters, sequences of calls, random outcomes and clocks; proposal densities that depend on the offset from their centre", "why_tests_cant": "a test compares two runs for one shift and one seed; equivariance relates pairs of whole executions, for all shifts and all draws", "anchors": ["ais_benchmarks/sampling_methods/dm_ais.py::CDeterministicMixtureAIS.importance_sample", "ais_benchmarks/sampling_methods/layered_ais.py::CLayeredAIS.importance_sample", "ais_benchmarks/sampling_methods/metropolis_hastings.py::CMetropolisHastings.importance_sample", "ais_benchmarks/sampling_methods/nested.py::CNestedSampling.importance_sample", "ais_benchmarks/sampling_methods/multi_nested.py::CMultiNestedSampling.importance_sample", "ais_benchmarks/sampling_methods/hi_daisee.py::CHiDaiseeSampling.importance_sample"]}
{"id": "C153", "title": "The density of a tree pyramid is evaluated at the points passed", "statement": "For a tree pyramid sampler with the haar kernel, prob and log_prob return one value per point for every array format they accept: the value of the (normalised) proposal density at that point, and its logarithm. As for the other densities of the package, a flat array stands for points of ndims numbers (the code reshapes it so), and points of another dimension are refused.", "quantifier": "all trees reached by any sequence of operations, dimensions, array formats and batch sizes", "why_tests_cant": "a test evaluates a few points in one format; which array shapes numpy broadcasts silently is only settled by considering all of them", "anchors": ["ais_benchmarks/sampling_methods/tree_pyramid.py::CTreePyramidSampling.prob", "ais_benchmarks/sampling_methods/tree_pyramid.py::CTreePyramidSampling.log_prob"]}
{"id": "C154", "title": "Asking in portions equals asking at once", "statement": "The benchmark asks a sampler for a growing number of samples. For DM-AIS, layered AIS, M-PMC, Metropolis-Hastings, HiDaisee, rejection sampling and the tree pyramid: a call for n1 samples followed by a call for n2 >= n1 samples returns the same samples and weights, and leaves the same proposal and counters, as one call for n2 samples with the same random outcomes, as long as the time limit is not reached in the first call. (Nested sampling has its own property, C87.)", "quantifier": "all targets, numbers n1 <= n2, configurations, earlier calls and random outcomes", "why_tests_cant": "a test compares two runs for one pair of numbers and one seed; whether the bookkeeping at the end of a call disturbs the next one has to be shown for all states in which a call can end", "anchors": ["ais_benchmarks/sampling_methods/dm_ais.py::CDeterministicMixtureAIS.importance_sample", "ais_benchmarks/sampling_methods/layered_ais.py::CLayeredAIS.importance_sample", "ais_benchmarks/sampling_methods/m_pmc.py::CMixturePMC.importance_sample", "ais_benchmarks/sampling_methods/metropolis_hastings.py::CMetropolisHastings.importance_sample", "ais_benchmarks/sampling_methods/hi_daisee.py::CHiDaiseeSampling.importance_sample", "ais_benchmarks/sampling_methods/rejection.py::CRejectionSampling.importance_sample", "ais_benchmarks/sampling_methods/tree_pyramid.py::CTreePyramidSampling.importance_sample", "ais_benchmarks/benchmark/CBenchmark.py::CBenchmark"]}
{"id": "C155", "title": "A drawn sequence of visual items shows the last item of every identifier", "statement": "draw_sequence replaces elements whose identifier is drawn again. After drawing a sequence of axes, functions and points on an empty plot, the plot shows every part of the last item of each identifier exactly once, and nothing of the items it replaced; no exception is raised.", "quantifier": "all sequences of axes (with any number of ticks), functions and points, with any identifiers and repetitions", "why_tests_cant": "a test draws one sequence and looks at the picture; leftovers depend on which kinds of items are replaced by which, in any order", "anchors": ["ais_benchmarks/visualization/matplotlib/viz_interface.py::draw_sequence", "ais_benchmarks/visualization/matplotlib/viz_interface.py::draw_item", "ais_benchmarks/visualization/matplotlib/viz_interface.py::draw_axis", "ais_benchmarks/visualization/visuals.py::CVisual"]}
{"id": "C156", "title": "A run that cannot start leaves the earlier results alone", "statement": "CBenchmark.run with a configuration, benchmark or methods file that is missing or cannot be used (no targets, a target that cannot be constructed) raises an exception and leaves the result file as it was before: results of earlier runs are not lost.", "quantifier": "all benchmark objects, file names and contents, environments and states of the random generator", "why_tests_cant": "a test tries one missing file; that nothing was written before the exception depends on the order of all steps, for every content of the files", "anchors": ["ais_benchmarks/benchmark/CBenchmark.py::CBenchmark.run", "ais_benchmarks/benchmark/CBenchmark.py::CBenchmark.load_config", "ais_benchmarks/benchmark/CBenchmark.py::CBenchmark.load_benchmark", "ais_benchmarks/benchmark/CBenchmark.py::CBenchmark.load_methods"]}
{"id": "C157", "title": "The units of the axes do not matter", "statement": "The same problem in other units of the axes (bounds and proposals converted, the density of the target divided by the product of the conversion factors) gives, with the same random numbers, the same run: the samples are the converted samples, and weights, counters and labels are the same, after any calls, also when a call raises or runs out of time.", "quantifier": "rejection sampling (there for every change of coordinates), Metropolis-Hastings, DM-AIS, layered AIS and HiDaisee; all dimensions, positive conversion factors of the axes (one common factor for DM-AIS and layered AIS, which have a single proposal width for all axes), targets, bounds, parameters, random outcomes and sequences of calls", "why_tests_cant": "a test converts one problem and compares one seed; that no threshold or constant in the code has a hidden unit concerns all targets and all executions", "anchors": ["ais_benchmarks/sampling_methods/rejection.py::CRejectionSampling.importance_sample", "ais_benchmarks/sampling_methods/metropolis_hastings.py::CMetropolisHastings.importance_sample", "ais_benchmarks/sampling_methods/dm_ais.py::CDeterministicMixtureAIS.importance_sample", "ais_benchmarks/sampling_methods/layered_ais.py::CLayeredAIS.importance_sample", "ais_benchmarks/sampling_methods/hi_daisee.py::CHiDaiseeSampling.importance_sample"]}
{"id": "C158", "title": "The order of the axes does not matter", "statement": "The same problem with the axes of the space in another order (bounds, target and proposals accordingly) gives, with the same random numbers for the same axes, the same run: the samples are those of the first run with their coordinates in the other order, and weights, counters and labels are the same, after any calls, also when a call raises or runs out of time.", "quantifier": "rejection sampling, Metropolis-Hastings, nested and multi-nested sampling, DM-AIS, layered AIS and HiDaisee; all dimensions, permutations of the axes, targets, bounds, parameters, random outcomes and sequences of calls", "why_tests_cant": "a test exchanges two axes of one problem and compares one seed; that no step treats the first axis in a special way concerns all targets, permutations and executions", "anchors": ["ais_benchmarks/sampling_methods/rejection.py::CRejectionSampling.importance_sample", "ais_benchmarks/sampling_methods/metropolis_hastings.py::CMetropolisHastings.importance_sample", "ais_benchmarks/sampling_methods/nested.py::CNestedSampling.importance_sample", "ais_benchmarks/sampling_methods/multi_nested.py::CMultiNestedSampling.importance_sample", "ais_benchmarks/sampling_methods/dm_ais.py::CDeterministicMixtureAIS.importance_sample", "ais_benchmarks/sampling_methods/layered_ais.py::CLayeredAIS.importance_sample", "ais_benchmarks/sampling_methods/hi_daisee.py::CHiDaiseeSampling.importance_sample"]}
