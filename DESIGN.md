# Formal model of IntelLabs/ais-benchmarks

The source under study is `/repo` (python, read as text). This directory holds

* `properties.jsonl` - the properties, in English, numbered C01...;
* `lean/Verif/Model/*.lean` - a functional model of the code, definition by definition,
  every definition citing the file and lines it models and saying where it simplifies;
* `lean/Verif/Spec/*.lean` - small independent vocabulary used in the statements;
* `lean/Verif/Proof/*.lean` - helper lemmas;
* `lean/Verif/Props/*.lean` - one theorem (or a few) per property, with `example`s showing that the
  hypotheses can be met by concrete non trivial data;
* `MANIFEST.json` - property -> status and theorem names;
* `seeded/LOG.jsonl` - record of deliberate bugs put in a scratch copy of the model and of the theorems
  that noticed.

Naming: `Cxx_...` is a theorem for property Cxx. `Cxx_refuted` is the negation of the English claim, proved with a
concrete witness, when the code violates it. `..._partial` proves the part that does hold; its comment says what is
missing. A property is `partial` in the manifest when it is refuted or only a part is proved.

## How the code is represented

* **Numbers.** Floats are idealised: rounding and overflow are not modelled. Code that only uses
  field operations and comparisons is modelled over an arbitrary linearly ordered field `K` (so the theorems
  hold over the rationals and over the reals); code that uses exp/log/integrals is modelled over `Real`.
  Where the code branches on NaN/inf, or where a division by zero can be reached and its result is used,
  the type `XF` of extended numbers (`fin x`, `+inf`, `-inf`, `nan`) with IEEE comparison and arithmetic rules
  (one unsigned zero) is used, so these cases are values of the model and not silently totalised away.
* **Exceptions** are values (`Except PyErr a`), or the constructor `raised` of `Out` together with the state of the object
  at that moment.
* **Randomness, clock, target density, KMeans, the other thread** are parameters of the model: streams, scripts or
  functions over which the theorems quantify universally. Probabilistic statements (unbiasedness, invariance,
  law of the samples) are stated with Mathlib measures and integrals.
* **Mutable objects** become records; parallel numpy arrays become lists; a method that
  mutates `self` becomes a function returning the new record. Aliasing that the code relies on or suffers from is
  modelled (views of live points in nested sampling, shared weight array in M-PMC, shared proposals in the AIS samplers).
* **Loops** guarded by data or by the clock become recursion on the remaining work or recursion over a finite script
  of the environment (`Model/Loop.lean`); a call that has not ended when the script ends is `running`. Theorems quantify
  over all scripts, so they speak about every finite prefix of every execution.

## Per property: model and proof

| id | title | status | model and proof | theorems |
|---|---|---|---|---|
| C01 | Mixture weights are normalised whatever the caller passes | proved | `set_weights` over `XF` lists; list induction and field algebra | `C01_set_weights_normalises`, `C01_length_mismatch` |
| C02 | A mixture whose weights are all invalid falls back to equal weights | partial | same model; negation with a witness, and what the code does instead | `C02_refuted`, `C02_partial` |
| C03 | Mixture prob and log_prob agree and equal the weighted sum of the components | proved | `prob`, `log_prob` (shifted logsumexp) over extended reals; algebra of exp and log | `C03_prob_logprob_agree` |
| C04 | A mixture of densities is a density | proved | same, with Bochner integrals on any measure space; linearity | `C04_mixture_is_density` |
| C05 | Mixture sampling only uses components of positive weight and returns n points | proved | `sample` with numpy multinomial as a chain of Bernoulli outcomes; induction over the components | `C05_sample_positive_components` |
| C06 | The uniform distribution is a density supported on its box | proved | uniform `prob`/`log_prob` with shape checks; volume of boxes | `C06_uniform_density`, `C06_bad_radius` |
| C07 | Uniform integral(a,b) is the probability of the box | partial | `integral`; negation with a disjoint box, equality for overlapping boxes | `C07_refuted`, `C07_refuted_large`, `C07_partial` |
| C08 | Uniform samples have positive density | partial | sample = low + u (high - low), 0 <= u < 1; negation at u = 0, proof for u > 0 | `C08_refuted`, `C08_partial` |
| C09 | The normal density is the Gaussian density and integrates to one | proved | constructor and `log_prob` with any positive definite covariance; Gaussian integrals by orthogonal diagonalisation | `C09_normal_density` |
| C10 | set_moments leaves no trace of the previous moments | proved | `set_moments` as a state machine; induction on the history | `C10_set_moments` |
| C11 | The exponential distribution has the exponential density | partial | exponential `prob`/`log_prob`; negation, proof for unit means | `C11_refuted`, `C11_partial` |
| C12 | prob and log_prob of every shipped density agree everywhere | partial | benchden densities and banana; negation for Maxwell, real analysis for the others | `C12_refuted`, `C12_partial` |
| C13 | Benchden densities integrate to one | partial | same; improper integrals, negation for BenchDenUniform | `C13_refuted`, `C13_partial`, `C13_exponential` |
| C14 | Smoothing kernels are densities for every location and bandwidth | proved | kernels; interval integrals and change of variables | `C14_kernels`, `C14_normal_kernel` |
| C15 | Batch evaluation does not couple the rows | partial | arrays as lists of rows with the shape checks; list lemmas | `C15_uniform_batch`, `C15_partial`, `C15_laplace`, `C15_mixture`, `C15_refuted` |
| C16 | The KL divergence estimate is never negative | proved | KL computations over extended reals with masks; Gibbs inequality | `C16_kl_nonneg` |
| C17 | The KL divergence is zero exactly for proportional densities and ignores normalisation | proved | same; equality case of Gibbs | `C17_kl_zero_iff_proportional` |
| C18 | The Jensen-Shannon value is a normalised symmetric distance | proved | JSD; Gibbs and the bound log 2 | `C18_jsd`, `C18_infinite` |
| C19 | Divergences of densities with disjoint support are maximal | partial | same; negation with a witness, `compute_from_probs` gives infinity | `C19_refuted`, `C19_partial` |
| C20 | The expected value MSE is a squared distance between the two means | proved | EVMSE; algebra | `C20_evmse` |
| C21 | Elapsed time accumulates exactly the measured intervals | proved | elapsed time metric as a state machine; induction on histories | `C21_elapsed_time` |
| C22 | Metric reset forgets the past | partial | both performance metrics; negation for memory | `C22_refuted`, `C22_partial` |
| C23 | Weight based NESS is in (0,1] and 1 exactly for equal weights | proved | NESS formulas; Cauchy-Schwarz with equality case | `C23_weight_ness` |
| C24 | Perplexity based NESS of nested sampling is in (0,1] | proved | perplexity; Jensen | `C24_perplexity_ness`, `C24_zero_weight_nan` |
| C25 | Variogram NESS does not depend on units or origin | partial | variogram, autocorrelation loop; algebra, loop congruence, negation for vector translations | `C25_refuted`, `C25_partial`, `C25_one_dim`, `C25_stops` |
| C26 | Tree pyramid bookkeeping stays consistent under any expansion order | proved | tree as arrays of nodes; invariant by induction over tree operations | `C26_bookkeeping` |
| C27 | Tree pyramid leaves tile the root cube | proved | same; geometry of dyadic children | `C27_tiling` |
| C28 | The tree pyramid haar proposal is a density | proved | proposal density; finite sums over leaves and volumes of boxes | `C28_prob_pointwise`, `C28_prob_integrates` |
| C29 | find returns the leaf that contains the point | partial | `find`; negation with the non terminating search, proof before the first expansion | `C29_refuted`, `C29_partial` |
| C30 | The samples handed back by the tree pyramid are exactly those stored in the leaves | partial | `_get_samples`; negation on a run, proof for single sample leaves | `C30_refuted`, `C30_partial` |
| C31 | Tree pyramid samples never leave their leaf, samples and weights stay aligned | proved | `importance_sample` (simple scheme); invariant over runs | `C31_samples_in_leaf` |
| C32 | A leaf is only split when its weights are uneven enough, and splitting conserves weight | proved | `_expand`; case analysis of the criterion, sums of weights | `C32_expand` |
| C33 | The weights of one refinement step estimate the integral of the target over the refined cells | proved | refinement step; product measures and Fubini | `C33_unbiased`, `C33_tree` |
| C34 | The refinement step respects the requested number of parallel samples | proved | `_expand_nodes`; list lemmas | `C34_expand_nodes` |
| C35 | HiDaisee leaves tile the space under any sequence of splits | proved | HiDaisee tree; invariant over splits | `C35_tiling` |
| C36 | HiDaisee splits neither lose nor invent samples | proved | same; multiset of samples is preserved | `C36_split`, `C36_calls` |
| C37 | HiDaisee keeps every inner node's mass equal to the sum of its children | partial | mass refresh along the path; negation on a run, proof for all ancestors but one | `C37_refuted`, `C37_partial` |
| C38 | DM-AIS returns normalised weights and never discards samples | proved | DM-AIS loop; loop invariants, termination bound | `C38_dm_ais`, `C38_terminates` |
| C39 | DM-AIS adaptation moves proposals only to sampled points of positive weight | proved | DM-AIS `resample`; support of the multinomial | `C39_dm_resample` |
| C40 | Deterministic mixture weights are unbiased | proved | batch weights; Bochner integral over the product of the proposals | `C40_unbiased`, `C40_unbiased_normal`, `C40_normal_proposals` |
| C41 | Layered AIS proposals never leave the search space | proved | layered AIS; invariant over runs | `C41_lais_in_space` |
| C42 | Layered AIS returns normalised weights, keeps samples and counts its evaluations | proved | layered AIS loop and counters; loop invariants | `C42_lais`, `C42_lais_weights` |
| C43 | M-PMC mixture weights stay a probability vector and means stay in the convex hull of the batch | proved | M-PMC `adapt`; convex combinations | `C43_adapt` |
| C44 | M-PMC returns normalised weights | partial | M-PMC loop; negation, sum equals the number of batches | `C44_refuted`, `C44_partial` |
| C45 | M-PMC covariance update is the weighted covariance | partial | M-PMC covariance; negation, dominance of the scatter matrix | `C45_refuted`, `C45_partial` |
| C46 | Metropolis-Hastings samples stay in the search space and the accounting is exact | proved | MH steps, log and counters; invariant over runs with any clock | `C46_mh` |
| C47 | Metropolis-Hastings sample(n) returns n samples | partial | MH `sample`; negation, number of samples is n*n | `C47_refuted`, `C47_partial` |
| C48 | The Metropolis-Hastings chain leaves the target invariant | partial | accept/reject kernel on Real^d; detailed balance, invariant law of the retry chain, negation | `C48_refuted`, `C48_detailed_balance`, `C48_partial` |
| C49 | A point rejected by Metropolis-Hastings is never returned as a sample | partial | MH step with clock; negation when the clock runs out, proof otherwise | `C49_refuted`, `C49_step`, `C49_partial` |
| C50 | Rejection sampling returns only accepted points, never more than asked, with uniform weights | proved | rejection loop; loop invariant | `C50_rejection` |
| C51 | Accepted points follow the target | proved | acceptance region in space times [0,1]; Fubini, law of the accepted points | `C51_accept`, `C51_samples` |
| C52 | Rejection sampling counts the proposals it draws | partial | counters; negation, exact relation proved | `C52_refuted`, `C52_partial`, `C52_first_partial` |
| C53 | Nested sampling discards points of non decreasing likelihood and keeps N live points | proved | nested sampling loop; invariants on live points and recorded likelihoods | `C53_nested`, `C53_discard` |
| C54 | Nested sampling returns exactly n weighted samples whose weights sum to one | proved | same; telescoping prior masses | `C54_nested` |
| C55 | Nested sampling prior masses add up to at most the whole prior | partial | prior masses; negation, exact sum | `C55_refuted`, `C55_partial`, `C55_half` |
| C56 | Nested sampling samples stay in the search space | partial | `resample`; negation, proof for targets vanishing outside | `C56_refuted`, `C56_partial` |
| C57 | Ellipsoid clustering terminates and partitions the live points | proved | `recursive_clustering` with KMeans as oracle; well founded recursion on the number of clusters, partition lemma | `C57_clustering` |
| C58 | Multi-nested sampling returns the number of samples asked for | partial | loop sizes; negation, exact count | `C58_refuted`, `C58_refuted_again`, `C58_partial` |
| C59 | Repeating a request for samples is free | partial | all samplers; state equality of a repeated request | `C59_dm`, `C59_lais`, `C59_mpmc`, `C59_rejection`, `C59_mh`, `C59_hidaisee`, `C59_nested_partial`, `C59_refuted` |
| C60 | reset makes a sampler indistinguishable from a new one | partial | `reset` as assignments on an arbitrary object; state equality with a new object | `C60_ais`, `C60_tp`, `C60_hidaisee`, `C60_mpmc`, `C60_rejection`, `C60_nested`, `C60_multinested`, `C60_mh_partial`, `C60_refuted` |
| C61 | The evaluation loop ends and reports strictly growing sample counts | proved | benchmark loops over abstract methods and metrics; loop invariants | `C61_evaluation`, `C61_calls` |
| C62 | The sampling time limit stops a repetition | partial | same; negation, bound over all calls | `C62_partial`, `C62_refuted` |
| C63 | Every result line has the columns announced by the header | partial | text of header and rows; splitting at blanks | `C63_partial`, `C63_refuted`, `C63_refuted_width` |
| C64 | A method's results do not depend on which other methods are benchmarked | partial | seeding and reset; simulation between two runs | `C64_evaluation`, `C64_run`, `C64_refuted` |
| C65 | time_to_hms loses no time | proved | floor division; algebra | `C65_time_to_hms` |
| C66 | The stream reader delivers every line once and in order | proved | two threads and a queue as interleaved atomic actions; invariant over executions | `C66_read_in_order`, `C66_never_blocks` |
| C67 | read_last_and_clear returns the newest line available | partial | same; negation with a race, proofs for the other executions | `C67_refuted`, `C67_partial`, `C67_no_keep`, `C67_never_back` |
| C68 | make_grid enumerates the full lattice exactly once inside the box | proved | numpy meshgrid/transpose/reshape on arrays of any rank; induction over the axes | `C68_make_grid`, `C68_reshape`, `C68_three_dims` |
| C69 | A random GMM lives inside the requested space | partial | generator with universally quantified draws; negation, proof with variances | `C69_refuted`, `C69_partial`, `C69_large_variances` |
| C70 | Conditioned models refuse to be evaluated before being conditioned | partial | call histories of the three derived models; induction on histories | `C70_refuted`, `C70_abc`, `C70_posterior`, `C70_noisy`, `C70_noisy_sample`, `C70_nuisance` |
| C71 | A tree pyramid call never raises and returns what was asked for | proved | tree pyramid call with any target values; invariant, case analysis | `C71_never_raises` |
| C72 | The documented ess_target None is usable | partial | same with `ess_target=None`; every call raises | `C72_refuted` |
| C73 | Every normal distribution the constructor accepts is a probability density | partial | constructor check (determinant only); negation with -I | `C73_refuted`, `C09_normal_density` |
| C74 | A density is zero outside its support | partial | masked assignment; negation for empty masks | `C74_refuted`, `C74_exponential_partial`, `C74_maxwell` |
| C76 | Divergence terms can be recomputed from the same arrays | proved | in-place array operations; the arrays passed are unchanged | `C76_log_probs_repeatable`, `C76_probs_repeatable` |
| C77 | The effective sample size reported for a chain is a number in (0,1] | partial | variogram NESS; negation, bounds when the autocorrelations are not negative | `C77_refuted`, `C77_partial` |
| C78 | DM-AIS tolerates a batch on which the target is zero | partial | DM-AIS; ValueError for every state and zero batch | `C78_refuted`, `C78_dm_ais_zero_batch` |
| C79 | Every number of proposals and of samples per proposal works | partial | DM-AIS and layered AIS; ValueError for N = K = 1 | `C79_refuted`, `C38_dm_ais`, `C42_lais` |
| C80 | M-PMC returns points of the space | partial | M-PMC; NaN means stay | `C80_refuted`, `C80_partial` |
| C81 | M-PMC works for every batch size | partial | M-PMC; AssertionError on singular covariances | `C81_refuted`, `C81_few_samples` |
| C82 | M-PMC keeps samples, adds whole batches and counts its evaluations | proved | M-PMC loop; loop invariants | `C82_mpmc` |
| C83 | The Metropolis-Hastings log marks exactly the returned samples | proved | MH log; invariant | `C83_mh`, `C83_sample` |
| C84 | Metropolis-Hastings importance_sample returns what was asked for with uniform weights | proved | MH `importance_sample`; loop invariants | `C84_mh`, `C84_terminates` |
| C86 | Nested sampling: every returned sample is the point that was discarded | partial | numpy view of a live point; negation, proof from the second sample on | `C86_refuted`, `C86_partial` |
| C87 | Nested sampling: asking in portions equals asking at once | proved | nested sampling; splitting of the loop | `C87_portions` |
| C88 | Multi-nested sampling discards points of non decreasing likelihood | partial | multi-nested loop; negation, proof for one ellipsoid | `C88_refuted`, `C88_partial` |
| C89 | Multi-nested sampling keeps N live points and returns normalised weights | proved | multi-nested loop; invariants | `C89_weights` |
| C91 | A Gaussian mixture model is the weighted sum of its normals | proved | `CGaussianMixtureModel` constructor, `prob`, `log_prob`; C09 and C04 | `C91_gmm_density` |
| C92 | The egg box has one equally weighted component per lattice point | proved | `generateEggBoxGMM`; C68 and C91 | `C92_egg_box` |
| C93 | A noisy function reports the density of its own samples | partial | noisy function; negation with a doubling function, proof for the identity | `C93_refuted`, `C93_partial`, `C93_single_noise` |
| C94 | A mixture of shipped densities is the weighted sum of what its components report | partial | mixtures on arrays, components may raise or return other shapes; lifted from the list model row by row, negations with witnesses | `C94_refuted`, `C94_partial`, `C94_single_value` |
| C95 | The proposal adaptation of layered AIS leaves the target invariant | partial | `mcmc_mh` as a measurable map on centre and draws; balance of accepted moves, induction on the moves; negation with the uniform target | `C95_refuted`, `C95_partial`, `normal_offsets` |
| C96 | Layered AIS adaptation never leaves the support of the target | proved | `mcmc_mh`, `resample` and the main loop; invariant | `C96_support` |
| C85 | After sampling, a sampler's density is the kernel density estimate of its samples | partial | `_update_model`, `prob` and `log_prob` of the base class on top of the sampler states; C91; negation for rejection sampling | `C85_mh`, `C85_nested`, `C85_multinested`, `C85_rejection_partial`, `C85_no_samples`, `C85_refuted` |
| C98 | The density reported by a population sampler is a probability density at every time | partial | proposals as normal objects; invariants of C38, C42, C44 with positive definite covariances; negation from the state of C80 | `C98_dm`, `C98_lais`, `C98_partial`, `C98_refuted` |
| C75 | The default integral of a distribution is an unbiased estimate | proved | `integral` as a function of the draws; Fubini: given the points the expected number of inliers times the height is the sum of the densities, then an affine change of variables | `C75_bounds`, `C75_unbiased` |
| C90 | The density HiDaisee reports follows the estimated mass of its regions | partial | mixture built from the leaves by `updateModel`; leaves are disjoint (tree invariant of C35), so the sum over components has one term; integral from C04 and C06; negation with a call of one sample outside the support | `C90_refuted`, `C90_partial`, `C90_no_mass` |
| C97 | Setting a likelihood function of a distribution sets both prob and log_prob | partial | object with two optional batch functions; induction on the setter calls; negation with both functions set | `C97_refuted`, `C97_partial`, `C97_shape` |
| C99 | The delta distribution is concentrated in its centre | partial | `CMultivariateDelta` with the tolerance of `np.isclose`; negation at a point next to the centre and for `integral` | `C99_refuted`, `C99_partial` |
| C100 | The volume of a bounding ellipsoid is the volume of the region it describes | partial | measure of the ellipsoid from the volume of the unit ball (Mathlib) and a factorisation of the inverse covariance; negation for `4 I` in the plane | `C100_refuted`, `C100_partial`, `C100_interval` |
| C101 | Tree pyramid sampling with the mixture scheme delivers the samples asked for | partial | tree pyramid schemes mixture/dm with the haar kernel, `find` with an arbitrary recursion bound; invariant: the root is expanded at most once; negation for every history | `C101_refuted`, `C101_refuted_error`, `C101_partial` |
| C102 | Weights of the mixture scheme are target over mixture density | partial | same model; the weights of a first call computed for every positive target, with and without leaf resampling and while only the root is sampled | `C102_refuted`, `C102_refuted_root`, `C102_partial` |
| C103 | Leaf resampling with the normal kernel gives importance weights | partial | `resample` with the normal kernel on every reachable tree; law of the resampled points by change of variables; weights of two leaves compared | `C103_refuted`, `C103_partial` |
| C104 | The normal kernel is the documented one | partial | the three normal distributions of the code identified with products of Mathlib densities; equality with the documented one decided for every radius | `C104_refuted`, `C104_partial` |
| C105 | Uniform and normal samples follow the reported density | proved | explicit measures for numpy uniform and standard normal draws; change of variables through the SVD used by numpy | `C105_uniform`, `C105_normal`, `C105_uniform_rows`, `C105_normal_rows` |
| C106 | Mixture samples are independent and follow the mixture density | proved | joint law of all points by induction on the number of samples; selection probabilities from independent Bernoulli events through the sequence of binomials | `C106_mixture`, `C106_gmm` |
| C107 | Whatever the constructor accepts, samples follow the reported density | partial | exact law of the exponential sampler compared with the reported function for every mean; negative definite covariance as second witness | `C107_refuted`, `C107_partial`, `C107_partial_entries` |
| C108 | sample(n) returns an n by dims array | partial | shapes of all samplers as numpy array values, concatenation errors included | `C108_refuted`, `C108_refuted_mixture`, `C108_refuted_empty`, `C108_partial`, `C108_partial_exponential` |
| C109 | The tree pyramid refines the regions of largest estimated mass first | proved | cached leaf values shown to be the stated means by an invariant over all calls; then the sorted order and the prefix of leaves tried by `expand_nodes` | `C109_greedy` |
| C110 | A sampling call ends when its time limit has passed | partial | an iteration flagged late ends every loop, whatever follows in the script; negations count target evaluations when all clock readings are late | `C110_partial_ais`, `C110_partial_population`, `C110_partial_mh`, `C110_partial_tree`, `C110_refuted_nested`, `C110_refuted_multi`, `C110_refuted_hidaisee` |
| C111 | The KL metric converges to the KL divergence | partial | strong law of large numbers over an infinite product of uniform draws; the estimate is a continuous function of three averages; Mathlib klDiv is the reference divergence; for infinite divergence the law of large numbers is applied to the truncated terms, whose integrals are unbounded by monotone convergence | `C111_partial_limit`, `C111_partial_same_support`, `C111_partial_diverges`, `C111_partial_infinite`, `C111_refuted` |
| C112 | The JSD metric converges to the Jensen-Shannon divergence | partial | as C111, with a uniform bound on the dependence of the terms on the ratio of the two normalisation sums | `C112_partial_limit`, `C112_partial_same_support`, `C112_refuted` |
| C113 | The expected value metric converges to the squared distance of the means | partial | as C111, averages of the densities and of the coordinates times the densities | `C113_partial_limit`, `C113_partial_inside`, `C113_refuted` |
| C114 | The default integral converges to the integral of the density | proved | sandwich between the hit fractions for fixed heights below and at the essential supremum of the density, strong law for each rational height | `C114_consistent` |
| C115 | Layered AIS is consistent | proved | strong law for sums of nonnegative rewards of constant conditional mean and bounded conditional second moment along a state driven by independent noise (Proof/AdaptiveSLLN, via orthogonality, Chebyshev along squares and monotonicity); mean and second moment of a round (Proof/AISRound); the weighted sums of the model state are these sums (Proof/AISRun) | `C115_lais_consistent`, `C115_bounded_targets` |
| C116 | DM-AIS can be asked for any number of samples | partial | some round has all its standard normal numbers far out with probability one; by induction the centres have stayed in a half space until then, so every point misses the support and the call raises (C78) | `C116_partial`, `C116_refuted`, `C116_fails_almost_surely` |
| C117 | The tree pyramid sampler is consistent | proved | a leaf that was sampled k times has an importance value between two positive multiples of its volume, so when a call has visited enough leaves every shallow one has been split (a potential counting the visits still possible above a level decreases with every visit); the leaves tile the cube, so the returned weights are a Riemann sum of the target with uniformly small cells. | `C117_consistent` |
| C118 | The tree pyramid sampler finds all the mass of a target that vanishes somewhere | partial | invariant of the run that loses the right half (leaf 2 has value 0, all others lie left of 1/2 and have positive values), so the sorted order never puts leaf 2 first; the partial result bounds the error by Riemann sums over the leaf cells | `C118_refuted`, `C118_partial` |
| C119 | The weights of the tree pyramid are target times cell volume, however often it is called | partial | invariant: the cached weight of every leaf is one common factor times target times cell volume; kept by visits when the factor is 1 and re-established by every leaf resampling; a two call run over the rationals for the refutation | `C119_refuted`, `C119_partial` |
| C120 | M-PMC weights of all batches are on the same scale | partial | induction over the iterations with the list of past states; every batch of weights is target / reported density over the batch sum (C98 for the density); two batches from normal distributions with variance 1 and 10 for the refutation | `C120_refuted`, `C120_partial`, `C120_batches` |
| C121 | HiDaisee samples and HiDaisee density agree about the mass of every region | partial | weights of a leaf from the invariant of C36, samples of a leaf from disjointness of the leaves (C35), probability of the leaf under the reported density from C90; a call with three samples for the refutation | `C121_refuted`, `C121_partial`, `C121_weights` |
| C122 | DM-AIS and layered AIS weights of all batches are on the same scale | proved | induction over the iterations with the list of past states: each completed iteration appends its batch with raw weights, the common factor of the final normalisation cancels | `C122_dm`, `C122_lais` |
| C123 | The acceptance rate is a fraction between 0 and 1 | partial | per method an invariant "samples held <= points counted" through every step of its loop; for the tree pyramid two potentials (weights in all histories, leaves), each bounded by the counter; Metropolis-Hastings with no steps per sample as the witness | `C123_partial_number`, `C123_partial_dm`, `C123_partial_lais`, `C123_partial_mpmc`, `C123_partial_hidaisee`, `C123_partial_rejection`, `C123_partial_nested`, `C123_partial_multi`, `C123_partial_tree`, `C123_partial_tree_mixture`, `C123_partial_mh`, `C123_refuted` |
| C124 | The support a distribution reports holds most of its mass | partial | the supports set by the constructors are modelled and the mass of each box is computed: products and the fundamental theorem for the closed forms, a sub-Gaussian tail bound for every covariance through the law of the sampled rows (C105), Fubini and Chebyshev for the banana; a stale support after set_moments as the witness | `C124_partial_uniform`, `C124_partial_exponential`, `C124_partial_laplace`, `C124_partial_maxwell`, `C124_partial_pareto`, `C124_partial_normal`, `C124_partial_banana`, `C124_refuted` |
| C125 | Rejection sampling follows the target exactly when the scaled proposal dominates it | proved | the acceptance test is an inequality on the pair of a proposed point and its uniform number; the measure of that region gives min(target, scaling*proposal)/scaling, the general accept-until-full lemma of C51 gives the joint law; densities with equal integrals over all sets are equal almost everywhere, which gives the condition | `C125_accept`, `C125_samples`, `C125_iff` |
| C126 | The methods search the box the target reports | partial | printing followed by evaluation is a function on coordinates with an arbitrary nearest-integer rounding; error bounds follow from the rounding property, exactness from integers being fixed by it, and the three failures are computed | `C126_partial`, `C126_partial_integers`, `C126_refuted` |
| C127 | A seeded benchmark can be repeated | partial | two runs are kept in step by a simulation relation (same object, same generator, same untimed metrics, rows equal up to the timed columns) through every function of the driver; the refutation runs the rejection sampler with equal random numbers and different clocks | `C127_partial`, `C127_refuted` |
| C128 | The plotted curve is the average over the repetitions | partial | pandas filter, groupby, mean and rolling mean as list functions; bounds by induction over the window, row independence by permutation invariance, a falling metric refutes the claim | `C128_partial`, `C128_partial_rows`, `C128_refuted` |
| C129 | The shaded band is the spread of the repetitions | partial | rolling standard deviation as a list function; two repetitions f+s and f-s have any spread but the same averages | `C129_partial`, `C129_refuted` |
| C130 | Supports of generated mixtures hold most of the mass | partial | box masses of diagonal Gaussians as products of one-dimensional masses, sub-Gaussian tails for the lower bound, an integral of a polynomial bound of the density for the upper one | `C130_partial_random`, `C130_partial_egg_box`, `C130_refuted_default`, `C130_refuted` |
| C131 | Long runs of Metropolis-Hastings describe the target | partial | the chain of accepted points driven by independent tries, its kernel (acceptance probability into a set over the acceptance probability), a minorisation of the kernel by the target, a strong law for minorised kernels (truncated Poisson equation and the adaptive strong law), refinement of importance_sample to the chain | `C131_limit`, `C131_partial`, `C131_refuted` |
| C132 | Long runs of rejection sampling describe the target | proved | one infinite sequence of proposals consumed in order; invariant: the object holds the accepted ones of the points drawn so far; strong law for the accepted points with the law of C125; ratio of two averages | `C132_limit`, `C132_consistent` |
| C133 | The acceptance rate of rejection sampling estimates the probability of acceptance | partial | the number of points drawn after each iteration as an iterated map; by the strong law the missing fraction after j iterations tends to (1 - a)^j > 0, so the number of iterations is unbounded | `C133_refuted`, `C133_partial` |
| C134 | No single sample of nested sampling keeps a fixed share of the weight | partial | weights of C54; the increments add up to at least 1 and all but the first to less than 1 (C55), later increments are at most 1/N | `C134_refuted`, `C134_partial`, `C134_refuted_multi`, `C134_partial_multi` |
| C135 | Averages over nested sampling settle as more samples are requested | proved | samples and likelihoods of earlier calls are prefixes of later ones; the increments after position n add up to at most exp(-(n-1)/N); difference of two ratios; Cauchy sequence | `C135_nested`, `C135_limit`, `C135_multi` |
| C136 | The result file gives back what was measured | proved | %d and %.pf as digit lists with an arbitrary rule for ties, a reader for decimal numbers in the specification; value of a digit list by induction, leading zeros, width of NESS; columns from C63 | `C136_read_back` |
| C137 | More samples bring the reported density closer to the target | partial | reported densities from C85; Chebyshev bound for the mass of the cubes around the kernels, volume of their union, distance of densities that put their mass in different places; average over all index choices and the limit of C132 for the part that holds | `C137_refuted`, `C137_partial` |
| C138 | Averages over the samples of HiDaisee tend to the right value | partial | outcomes of all iterations as an infinite product of laws; refinement of the tree by a chain of six numbers (cut or not, side of the last sample, masses and numbers of samples of the halves); strong law for martingale differences: if the averages were right the halves would get the same number of samples, but then the masses tend to 1/4 and 3/4 and so do the numbers of samples; for the part that holds Kantorovich inequality (no cut) and the strong law for independent samples | `C138_refuted`, `C138_partial` |
| C139 | No sampler looks at the target more often than it reports | partial | the outcome as a function of the target: it looks at p in k places when k values of p determine it; a composition rule for computations whose counter pays for the places, lifted through the loops by induction; for the tree pyramid with the structural invariant of the tree (the number of leaves is the number of resampled points) | `C139_refuted`, `C139_partial`, `C139_mixture_partial`, `C139_partial`, `C139_partial`, `C139_partial`, `C139_partial`, `C139_partial`, `C139_partial`, `C139_partial`, `C139_partial` |
| C140 | The statistics of a tree pyramid sampler describe the samples it handed back | partial | `get_stats` and `get_NESS` on the state of the sampler; the returned samples are what `_get_samples` finds; weights from C119, share from C23 | `C140_refuted`, `C140_partial`, `C140_ness_partial` |
| C141 | A benchmark object can be used again | proved | the attributes of the object, the loaders on values of yaml files, and `run` around the model of the evaluations; the loaders commute with the attributes they do not set (induction over the targets) | `C141_reuse` |
| C142 | The documented way of running a benchmark runs the given files | partial | same model, and the choice of the files by the script; negation with the files of README.md; induction over the entries of the file | `C142_refuted`, `C142_partial`, `C142_config` |
| C143 | Every plot shows the results of one target and has a file of its own | partial | file names and row selection of the plots on the model of the run; the rows of a run are blocks, one for each target and method (induction over both), and the selection picks one block; file names are injective by splitting at the first D and the last underscore | `C143_refuted`, `C143_partial` |
| C144 | Plots can be made again from the result file | partial | `make_plots` and the two scripts; loading the configuration and loading the targets commute, since they set different attributes | `C144_refuted`, `C144_partial` |
| C145 | A distribution saved as a benchmark entry can be loaded again | partial | `to_dict` and the part of `load_benchmark` that makes a target from an entry; round trip on the flattening of means and covariances | `C145_refuted`, `C145_partial`, `C145_load`, `C145_names` |
| C146 | Waiting for a ready distribution returns True | partial | the polling loop over a list of clock readings and answers; induction over the polls | `C146_refuted`, `C146_partial`, `C146_ready_partial` |
| C147 | Contour plots show the density they are labelled with | partial | the arrays passed to the drawing functions, over the model of grids of C68; drawing itself is not modelled | `C147_refuted`, `C147_partial` |
| C148 | Rejection sampling as shipped follows the target | partial | the proposal and scaling of def_methods.yaml put into the model of rejection sampling; from C125_iff: a normalised density below a normalised density equals it almost everywhere, and a set of full measure meets every open set | `C148_refuted`, `C148_partial` |
| C149 | Nonparametric distributions can be made and evaluated | partial | the two constructors as sequences of checks on a dictionary with optional entries; case distinction, induction over the samples | `C149_refuted`, `C149_partial` |
| C150 | An M-PMC adaptation does not make the proposal fit the weighted batch worse | partial | the EM argument: convexity of log over the posterior probabilities (Gibbs inequality), and the weighted mean minimises the quadratic form of a positive definite matrix; the refutation computes one adaptation in closed form | `C150_refuted`, `C150_partial` |
| C151 | Results do not depend on the normalisation of the target | partial | simulation: a map that scales the stored weights relates the states of the two runs, commutes with every step of the loops and is invisible after normalisation; induction over iterations and calls. The refutation follows two runs of HiDaisee for four samples; the second is obtained from the run with half the exploration constant by the partial theorem. The tree pyramid is done by a relation between the two trees (nodes scaled, cached weights arbitrary) that every step preserves; its refutations are two concrete runs | `C151_dm`, `C151_lais`, `C151_mpmc`, `C151_mh`, `C151_nested`, `C151_multinested`, `C151_hidaisee_partial`, `C151_refuted`, `C151_tp_partial`, `C151_tp_refuted_weights`, `C151_tp_refuted_resampling` |
| C152 | Moving the problem moves the samples | proved | simulation: a map that moves all stored points relates the states of the two runs and commutes with every step; for nested and multi-nested sampling the relation carries the invariant that the rows looked up exist. Induction over iterations, clustering depth and calls | `C152_mh`, `C152_nested`, `C152_multiNested`, `C152_dm`, `C152_lais`, `C152_hidaisee` |
| C153 | The density of a tree pyramid is evaluated at the points passed | partial | the loops of prob and log_prob over an array with the broadcasting rules of numpy are reduced to the row evaluation of C28; the general behaviour on flat arrays by induction over the array, the failure by a tree with four leaves | `C153_partial`, `C153_flat`, `C153_columns`, `C153_refuted` |
| C154 | Asking in portions equals asking at once | partial | a lemma on loops driven by a script: when the first loop used all its outcomes, the longer loop continues where it stopped; then the bookkeeping at the end of a call is shown not to be read by the next one (weights and density estimate of Metropolis-Hastings, model of HiDaisee and of the tree pyramid, cached weights of the tree by the relation of C151). Rejection sampling draws in other batches, there the samples are characterised as the first accepted entries of a stream. Refutations by concrete runs | `C154_dm`, `C154_lais`, `C154_mpmc`, `C154_mh`, `C154_hidaisee`, `C154_rejection_partial`, `C154_rejection_refuted`, `C154_tp_partial`, `C154_tp_refuted` |
| C155 | A drawn sequence of visual items shows the last item of every identifier | partial | the objects on the plot as a list with identities, the two lists of draw_sequence; induction over the sequence with an invariant that relates the items on the plot to the last items of the part already drawn. Refutations by evaluation, for points for every continuation of the sequence | `C155_partial`, `C155_refuted_point`, `C155_refuted_axis` |
| C156 | A run that cannot start leaves the earlier results alone | partial | the run of Model/Config.lean, whose result says whether the result file was touched; case analysis over the loading of the files. Refutation by evaluation of a run of any object with a methods file that does not exist | `C156_partial`, `C156_refuted` |
| C157 | The units of the axes do not matter | proved | simulation between the two runs (Props/Units.lean, Props/UnitsHiD.lean), step by step through the loops, with the arithmetic of extended numbers under a common positive factor; sessions of calls as for C151 and C152 | `C157_rejection`, `C157_mh`, `C157_dm`, `C157_lais`, `C157_hidaisee`, `C157_proposal`, `C157_dm_normal`, `C157_lais_normal`, `C157_one_width` |
| C158 | The order of the axes does not matter | proved | simulation between the two runs (Props/AxisOrder.lean, Props/AxisOrderHiD.lean, Props/AxisOrderNested.lean), as for C157 and C152; rejection sampling is an instance of C157 | `C158_rejection`, `C158_mh`, `C158_nested`, `C158_multiNested`, `C158_dm`, `C158_lais`, `C158_hidaisee`, `C158_proposal` |

## Where the code and the properties disagree

Each item is proved (`Cxx_refuted`) on the model; the citation is the line to look at.

* **C02** `set_weights` with only invalid weights leaves them all zero although it announces equal weights (CMixtureModel.py).
* **C07** `integral` of a box that misses the support is negative, or large and positive when an even number of side lengths is negative.
* **C08** a uniform sample at the lower border has density zero (`u = 0` is possible, the density uses a strict comparison).
* **C11** the exponential density is wrong unless the mean is 1, and `log_prob` is 0 outside the support.
* **C12** Maxwell `log_prob` does not match `prob` outside the support. **C13** BenchDenUniform has radius 1 instead of 1/2.
* **C19** both divergences are 0 on disjoint supports. **C22** memory metric keeps its value on reset.
* **C25** the variance of a multidimensional chain is taken around the mean of all coordinates, so shifting one axis changes NESS.
* **C29** `find` restarts at the root for ever once the root has children. **C30** `_get_samples` of the tree pyramid overwrites
  samples of leaves that hold more than one. **C72** `ess_target=None` raises TypeError.
* **C37** HiDaisee does not refresh the mass of the direct parent of the visited leaf at depth two or more.
* **C44** M-PMC weights add up to the number of batches. **C45** its covariance update is the unweighted scatter matrix.
  **C80** a batch with zero target gives NaN means for ever. **C81** batches of one sample always raise.
* **C47** MH `sample(n)` returns n*n samples. **C48** rejected moves are retried instead of repeating the current point, so the
  invariant law is the target times the acceptance probability. **C49** when the clock runs out a rejected point is labelled accepted
  and returned. **C60** `reset` keeps the current point; **C64** therefore results depend on the other methods.
* **C52** rejection sampling counts n proposals per round although fewer are drawn.
* **C55** the first prior mass of nested sampling is the whole prior. **C56** retried candidates are not clipped to the space.
  **C86** the first sample is a view of a live point and is overwritten. **C58** multi-nested sampling rounds the number of samples and
  returns more than asked. **C88** its likelihoods are not monotone. **C59** every repeated nested request re-evaluates the live points.
* **C62** the benchmark's time limit is compared with a variable that is never updated. **C63** header and rows differ for the default metrics.
* **C67** `read_last_and_clear(keep_last)` can put an old line behind a newer one. **C69** `generateRandomGMM` uses five variances as margin
  instead of five standard deviations. **C68** (proved) note: reshaping by `shape` mislabels values in three dimensions.
* **C70** `ABCDistribution.sample` and the nuisance generator's `prob` are not guarded, a noisy function's `sample` raises TypeError.
  **C93** a noisy function's `prob` ignores its function.
* **C73** the normal constructor accepts -I in two dimensions. **C74** the exponential raises IndexError on batches outside its support.
  **C15** so the value of a row depends on the other rows; exponential and Maxwell `prob` reject single points given as vectors. **C94** a mixture
  with a Laplace component cannot evaluate `log_prob` of two points, a mixture with an exponential component has value = weight outside the support.
* **C95** candidates of layered AIS are clipped to the space, so the border gets positive probability under a target that has mass there.
* **C85** `prob` of the rejection sampler is the scaled proposal, its `log_prob` (and `sample`) belong to the kernel density estimate.
* **C98** after a batch with zero target `prob` of M-PMC is NaN everywhere.
* **C90** (`hi_daisee.py:292-320`): if no sample of a call has positive target density, all component weights are 0 and the
  sampler reports density 0 everywhere (and `sample` then always draws from the last leaf). Regions that contain no sample
  have weight NaN, which the mixture turns into 0.
* **C97** (`distributions.py:149-176, 251-283`): the documentation of both setters says the function given is used for `prob` and
  `log_prob`; each setter only changes its own function, so the two disagree afterwards.
* **C99** (`CMultivariateDelta.py:47-51`): `integral` reads the undefined name `center` and raises NameError for every box; the
  density is infinite at all points that `np.isclose` cannot tell from the centre.
* **C100** (`multi_nested.py:33-35`): the volume is the unit ball volume times `det(scale)` where the measure of the ellipsoid has
  the square root of the determinant, so large ellipsoids are taken for larger than they are and small ones for smaller.
* **C101** (`tree_pyramid.py:153`): `find` calls itself without moving to the child, so with method "mixture" or "dm" the
  second iteration after the root has been split raises RecursionError; no more than `2^d` samples can be obtained.
* **C102** (`tree_pyramid.py:404-418`): new leaves have the cached weight 0, so the importance density used for their first sample is 0
  and the weight infinite; after normalisation all weights of a first call are 0 or NaN. While only the root is sampled the
  weight left in the cache is not normalised, so the third weight is `π(x3)/π(x2)`.
* **C103** (`tree_pyramid.py:512`): with the normal kernel the resampled points are scaled by the leaf radius but the weights use the
  density of the unscaled draw, so the factor `(2r)^d` is missing and small leaves get too much weight.
* **C104** (`tree_pyramid.py:54-58, 137-139, 721-723`): the normal kernel is documented with standard deviation `r`; the code uses
  the variance `r/4` for sampling, `r` for the reported density and `2 r^2` for resampling.
* **C107** the exponential distribution samples with the given mean but reports another function unless the mean is 1; the normal distribution accepts the covariance -I in two dimensions (positive determinant) and samples as if it were I.
* **C108** the exponential sampler returns a vector (or raises when neither the dimension nor n fits), so the demonstration mixture of `CMixtureModel.py` raises once it selects both kinds of component; distributions without their own sampler raise NotImplementedError although a rejection sampling fallback is documented; `sample(0)` of a mixture has no columns.
* **C110** (`nested.py:31-50`, `multi_nested.py:105-130`, `hi_daisee.py:200-244`): the first two apply the time limit to every single
  point anew, so a call may take `n` times as long; HiDaisee ignores it.
* **C111, C112, C113** (`divergences.py:85, 138, 171`, `statistics.py:32`): the evaluation points only cover the support of `p`, and
  points where one density is 0 are dropped, so the metrics converge to values for the densities conditioned on the common
  region. For the uniform densities on [0, 1) and [0, 2) all three are 0 for every number of samples.
* **C116** the ValueError of C78 is certain: on any target of bounded support a long run of DM-AIS raises with probability one.
* **C118** (`tree_pyramid.py:452-456`): leaves are split in order of decreasing value and a value of 0 comes last, so a half whose
  first sample has density 0 is not visited again while others can be split. On a target on [0, 1] with a gap the mass beyond the gap
  is lost for ever with probability at least 1/4 per run.
* **C119** (`tree_pyramid.py:710-736`): `_update_model` normalises the stored weights in place, so without leaf resampling a further
  call combines normalised weights of old leaves with unnormalised weights of new ones.
* **C120** (`m_pmc.py:109-116`): the importance weights are divided by their sum over the batch before they are appended. A batch
  from a bad early proposal counts as much as one from an adapted proposal, and the ratio of two weights of different batches is
  not the ratio of their importance weights: with a constant target a batch drawn at distance 3 from a standard normal and one
  drawn at the same distance from a normal with variance 10 get equal weights although the importance weights differ 18-fold.
* **C121** (`hi_daisee.py:302-311`): `_get_samples` returns the leaf weights target times volume without dividing by the number of
  samples in the leaf. A leaf that was sampled more often counts more: the total weight of a leaf is the number of its samples times
  its estimated mass, so weighted averages of the returned samples are biased towards often visited leaves, while the reported
  density (which uses the mean weight of a leaf) is not.
* **C123** Metropolis-Hastings with `n_steps = 0` keeps the state after the burn in once per sample and reports an acceptance rate above 1.
* **C124** `set_moments` of the normal distribution keeps the old support, and a parameter dictionary used twice carries the first support into the second distribution; the support `[0, 4 mean]` of exponential distributions loses more than half of the mass from dimension 38 on.
* **C126** `load_methods` passes the search space through `np.array2string`: corners are rounded to 8 decimals, close corners can coincide, and above 1000 dimensions the text is abbreviated with `...`.
* **C127** the result file of a seeded benchmark depends on the speed of the machine as soon as a call reaches its time limit.
* **C128**, **C129** the plots smooth over ten sample counts (nothing is drawn for the first nine) and the band is the square root of a standard deviation between sample counts, not between repetitions.
* **C130** `generateRandomGMM` and `generateEggBoxGMM` take five variances for five standard deviations: with the default variances the reported support of a one component mixture in three dimensions holds less than half of the mass.
* **C131** the samples of Metropolis-Hastings do not describe the target, however long the run: for a density of 2/3 on an interval and 1/3 on the next, two fifths instead of a third of the samples fall in the second.
* **C133** the acceptance rate reported by rejection sampling is one over the number of iterations of the loop: it tends to 0 as more samples are requested, whatever the probability of acceptance is (unless it is 1).
* **C134** the first prior mass increment of nested sampling is the whole prior, so the first discarded (least likely) sample keeps at least the share m / (m + M) of the weight for targets with values in [m, M], however many live points and samples are used.
* **C137** base.py:162-179 always uses `n_samples_kde` kernels of the configured width, however many samples there are: for a
  target spread widely enough (uniform on a cube of side 16 n_samples_kde sqrt(dims bw)) the reported density stays at L1
  distance at least 1 for every number of samples; in the limit its average is the target smoothed with the kernel.
* **C138** hi_daisee.py:235, 302-311: leaves are drawn in proportion to their estimated mass, but the weight of a sample only has
  the density of its leaf in the denominator, not the probability of the leaf. Leaves with much mass count twice: for levels
  1 and 3 on the halves of an interval the weighted averages almost surely do not tend to the right value, whatever
  `tau` and `n_min`, for `target_ess` above 0.8.
* **C139** tree_pyramid.py:443-447: the scheme simple weighs the first sample of the root but does not increase `_num_pi_evals`
  and `_num_q_evals` (the scheme mixture does, lines 383-386): a call that returns one weighted sample reports no evaluation.
* **C140** tree_pyramid.py:333: the NESS of `get_stats` is computed by the base class from `self.weights` and `self.samples`,
  which the tree pyramid never fills: 1/0 divided by 0, infinite in every state.
* **C142** run_benchmark.py:20: the arguments are used only if there are four of them; with the three files of the documented
  command line the default files are run without a message. The formats of README.md are not those read: the keys
  `nsamples`, `batch_size`, ... of a target are looked up outside its `evaluation` block, and `debug` is missing in the methods
  and in the configuration.
* **C143** CBenchmark.py:255-265: plots and their rows are identified by name and dimensions of the target; nothing checks that
  two entries of the benchmark file differ in them. The second plot overwrites the first, and both show the mixed rows.
* **C144** run_plots.py:24: no result file is passed to `make_plots`, so that the data is read from `results.txt` in the working
  directory, while run_benchmark.py writes to `results/results.txt` beside the script or to the file given.
* **C145** CGaussianMixtureModel.py `to_dict`: the type is written as `distributions.CGaussianMixtureModel`, but `distributions` in
  CBenchmark.py is the module distributions/distributions.py, which has no such class: loading the entry raises ValueError.
* **C146** distributions.py:288-294: the timeout is tested before readiness, so that a ready distribution raises TimeoutError for a
  timeout of 0; CGenericNoisyFunction.py:44-45 returns None.
* **C147** CBenchmark.py:438-443: `grid_sample_distribution` returns densities, which are named `log_prob` and exponentiated.
* **C148** def_methods.yaml:12-19: with scaling 1 a normalised proposal dominates a normalised target only if they are equal, so
  that the samples follow the minimum of target and proposal; the proposal is centred at 0, not at the centre of the search space.
* **C149** CKernelDensity.py:36 passes two arguments to a constructor with one; CNearestNeighbor.py:21 uses an undefined name.
* **C150** m_pmc.py:64-68: the covariance is the unweighted sum of squares of the batch around the new mean,
  not the scatter weighted by the posterior; a step can therefore lower the weighted likelihood.
* **C151** hi_daisee.py:255, 261: `sigma * sqrt(log t / N)` is added to a mean of target values, so the regions selected depend
  on the scale of an unnormalised target. tree_pyramid.py:705-708, 463-466: normalised weights of earlier calls are stored next to
  unnormalised new ones; 527-533: with leaf resampling the history of the root keeps its first unnormalised weight, so
  that the criterion for splitting depends on the scale. The other samplers are invariant.
* **C153** tree_pyramid.py:537, 572: the result of `x.reshape(-1, self.ndims)` is thrown away. A flat array is then iterated number
  by number and every number is compared with all coordinates; a matrix with one column is broadcast in the same way.
* **C154** rejection.py:23, 27, 29: the counters grow by `n_samples` per iteration although only the missing samples are drawn, so that asking
  in portions counts more than asking at once. tree_pyramid.py:705-708: the normalisation at the end of a call is part of the
  weights that later calls return next to unnormalised ones.
* **C155** viz_interface.py:7, 81: a point is drawn by `scatter`, whose result is not iterable, so that replacing a point raises
  TypeError. Lines 35, 47: the list of the objects of an axis has only the last tick line (without ticks the axis line twice).
* **C156** CBenchmark.py:169-177: the result file is opened for writing before the methods file is read, so that a wrong name of
  the methods file destroys the results of the previous run.
* **C77** variogram NESS can be negative, infinite, NaN or above 1. **C78** DM-AIS raises on a batch with zero target. **C79** N = K = 1 raises.
* Also seen while modelling: `evaluate_method` raises for `max_samples <= 0` (NameError or ZeroDivisionError); `generateRandomGMM` with
  no components raises ValueError and its default variances only fit three dimensions; `CMultivariateDelta.integral` and
  `CNearestNeighbor` use undefined names; `CKernelDensity` passes two arguments to the one argument constructor of `CMixtureModel`; `apis.py` cannot be constructed.

## What is modelled

| source file | modelled | not modelled |
|---|---|---|
| `distributions/distributions.py` | `_check_shape`, `prob`, `log_prob`, likelihood setters, Monte Carlo `integral`, kernels, `wait_for_ready` | `draw` |
| `distributions/mixture/CMixtureModel.py` | constructor, `set_weights`, `prob`, `log_prob`, `sample` | `draw`, `marginal` |
| `distributions/mixture/CGaussianMixtureModel.py` | constructor, `prob`, `log_prob`, `sample`, `to_dict` | plotting |
| `distributions/parametric/CMultivariateUniform.py` | constructor, `prob`, `log_prob`, `sample`, `integral`, `is_inside` logic | `marginal` |
| `distributions/parametric/CMultivariateNormal.py` | constructor (also the default support), `set_moments`, `prob`, `log_prob`; `sample` (numpy's SVD algorithm) | `marginal` |
| `distributions/parametric/CMultivariateExponential.py` | `prob`, `log_prob`, `sample` | - |
| `distributions/parametric/CMultivariateDelta.py` | `prob`, `log_prob`, `sample`, `integral` | drawing |
| `distributions/benchden/*`, `rare/banana2d.py` | densities and supports | generators |
| `distributions/nonparametric/*` | constructors | everything after them: the constructors raise before an object exists |
| `distributions/derived/*` | the three classes | `draw`, demo code |
| `metrics/*` | KL, JSD, EVMSE (also the drawing of the evaluation points), elapsed time, memory | process inspection (memory readings are parameters) |
| `sampling_methods/base.py` | counters, NESS formulas, `_update_model`, `prob`, `log_prob`, `make_grid` | drawing |
| `sampling_methods/tree_pyramid.py` | tree, expansion, simple and multi leaf refinement, resampling, `importance_sample` (simple, mixture and dm schemes, haar kernel); node sampler, model component and `resample` with the normal kernel | `importance_sample` loops with the normal kernel, drawing |
| `sampling_methods/{dm_ais,layered_ais,m_pmc,metropolis_hastings,rejection,nested,multi_nested,hi_daisee}.py` | constructors, `reset`, `importance_sample` and everything it calls | drawing; shape of the ellipsoid draws |
| `sampling_methods/apis.py` | - | all: the constructor ends with `raise NotImplementedError` |
| `benchmark/CBenchmark.py` | `load_methods` (also the printing of the search space), `run`, `evaluate_method`, `write_results`, the data of `make_2d_plot`, `load_config`, `load_benchmark` | yaml parsing (the loaders work on parsed files), drawing |
| `utils/misc.py` | `time_to_hms`, stream reader, `generateRandomGMM`, `generateEggBoxGMM` | - |
| `utils/plot_utils.py` | `make_grid`, `grid_sample_distribution`, and the data handed to the plotting library by `plot_grid_sampled_pdfs`, `plot_pdf2d` | drawing, the other functions |
| `visualization/matplotlib/viz_interface.py`, `visualization/visuals.py` | `draw_sequence`, `draw_item` and what the drawing functions put on the plot and return; item types | positions, colours, `draw_frames` |
| `visualization/manim/*`, `utils/video_writer.py`, `benchmark/plot_results.py` (deprecated) | - | all |

## Trusted base

* Lean 4.33.0 kernel and the Mathlib library it checked. The only axioms used are `propext`, `Classical.choice` and
  `Quot.sound`; the table below lists them per theorem. No `sorry`, no `native_decide`, no `bv_decide`, no own axioms.
* The hand translation from python to Lean (each definition cites its source lines).
* Numpy, scipy, sklearn and queue primitives are represented by their documented meaning, and where the documentation is
  silent by their source as known: `multinomial` as the sequence of binomial draws of numpy's C code, `multivariate_normal`
  through the SVD of the covariance, `exponential` as `-scale log(1 - u)`, `logsumexp` with
  the shift by the maximum, `reshape` returning views, `Queue` operations atomic,
  `array2string` with precision 8, threshold 1000 and its rule for scientific notation (C126).
* Exact arithmetic instead of floating point.
* The range of a random draw is assumed only where a theorem says so (`0 <= u < 1`). Independence and the laws of the
  generators enter only in C33, C40, C48, C51, C75, C95, C103 to C107, C111 to C118, C124, C125, C130 to C133, as explicit measures in the statements.

### Axioms per theorem

* **propext, Classical.choice, Quot.sound**: `Verif.C01_set_weights_normalises`, `Verif.C02_refuted`, `Verif.C02_partial`, `Verif.C03_prob_logprob_agree`, `Verif.C04_mixture_is_density`, `Verif.C05_sample_positive_components`, `Verif.C06_uniform_density`, `Verif.C06_bad_radius`, `Verif.C07_refuted`, `Verif.C07_refuted_large`, `Verif.C07_partial`, `Verif.C08_refuted`, `Verif.C08_partial`, `Verif.C09_normal_density`, `Verif.C10_set_moments`, `Verif.C11_refuted`, `Verif.C11_partial`, `Verif.C12_refuted`, `Verif.C12_partial`, `Verif.C13_refuted`, `Verif.C13_partial`, `Verif.C13_exponential`, `Verif.C14_kernels`, `Verif.C14_normal_kernel`, `Verif.C15_uniform_batch`, `Verif.Batch.C15_partial`, `Verif.Batch.C15_laplace`, `Verif.Batch.C15_mixture`, `Verif.Batch.C15_refuted`, `Verif.C16_kl_nonneg`, `Verif.C17_kl_zero_iff_proportional`, `Verif.C18_jsd`, `Verif.C18_infinite`, `Verif.C19_refuted`, `Verif.C19_partial`, `Verif.C20_evmse`, `Verif.C22_refuted`, `Verif.C23_weight_ness`, `Verif.C24_perplexity_ness`, `Verif.C24_zero_weight_nan`, `Verif.C25_refuted`, `Verif.C25_partial`, `Verif.C25_one_dim`, `Verif.C25_stops`, `Verif.C26_bookkeeping`, `Verif.C27_tiling`, `Verif.C28_prob_pointwise`, `Verif.C28_prob_integrates`, `Verif.C29_refuted`, `Verif.C29_partial`, `Verif.C30_refuted`, `Verif.C30_partial`, `Verif.C31_samples_in_leaf`, `Verif.C32_expand`, `Verif.C33_unbiased`, `Verif.C33_tree`, `Verif.C34_expand_nodes`, `Verif.HiD.C35_tiling`, `Verif.HiD.C36_split`, `Verif.HiD.C36_calls`, `Verif.HiD.C37_refuted`, `Verif.HiD.C37_partial`, `Verif.C38_dm_ais`, `Verif.C38_terminates`, `Verif.C39_dm_resample`, `Verif.C40_unbiased`, `Verif.C40_unbiased_normal`, `Verif.C40_normal_proposals`, `Verif.C41_lais_in_space`, `Verif.C42_lais`, `Verif.C42_lais_weights`, `Verif.PMC.C43_adapt`, `Verif.PMC.C44_refuted`, `Verif.PMC.C44_partial`, `Verif.PMC.C45_refuted`, `Verif.PMC.C45_partial`, `Verif.MHast.C46_mh`, `Verif.MHast.C47_refuted`, `Verif.MHast.C47_partial`, `Verif.MHast.C48_refuted`, `Verif.MHast.C48_detailed_balance`, `Verif.MHast.C48_partial`, `Verif.MHast.C49_refuted`, `Verif.MHast.C49_step`, `Verif.MHast.C49_partial`, `Verif.Rejection.C50_rejection`, `Verif.Rejection.C51_accept`, `Verif.Rejection.C51_samples`, `Verif.Rejection.C52_refuted`, `Verif.Rejection.C52_partial`, `Verif.Rejection.C52_first_partial`, `Verif.Nested.C53_nested`, `Verif.Nested.C53_discard`, `Verif.Nested.C54_nested`, `Verif.Nested.C55_refuted`, `Verif.Nested.C55_partial`, `Verif.Nested.C55_half`, `Verif.Nested.C56_refuted`, `Verif.Nested.C56_partial`, `Verif.MultiNested.C57_clustering`, `Verif.MultiNested.C58_refuted`, `Verif.MultiNested.C58_refuted_again`, `Verif.MultiNested.C58_partial`, `Verif.C59_mpmc`, `Verif.C59_rejection`, `Verif.C59_mh`, `Verif.C59_hidaisee`, `Verif.C59_nested_partial`, `Verif.C59_refuted`, `Verif.C60_mpmc`, `Verif.C60_rejection`, `Verif.C60_nested`, `Verif.C60_multinested`, `Verif.C60_mh_partial`, `Verif.C60_refuted`, `Verif.Bench.C61_evaluation`, `Verif.Bench.C61_calls`, `Verif.Bench.C62_partial`, `Verif.Bench.C62_refuted`, `Verif.Bench.C63_partial`, `Verif.Bench.C63_refuted`, `Verif.Bench.C63_refuted_width`, `Verif.Bench.C64_evaluation`, `Verif.Bench.C64_run`, `Verif.Bench.C64_refuted`, `Verif.C65_time_to_hms`, `Verif.Reader.C67_refuted`, `Verif.Reader.C67_partial`, `Verif.Reader.C67_no_keep`, `Verif.Reader.C67_never_back`, `Verif.C68_make_grid`, `Verif.C68_reshape`, `Verif.C68_three_dims`, `Verif.C69_refuted`, `Verif.C69_partial`, `Verif.C69_large_variances`, `Verif.Derived.C70_refuted`, `Verif.Derived.C70_abc`, `Verif.Derived.C70_posterior`, `Verif.Derived.C70_noisy`, `Verif.Derived.C70_noisy_sample`, `Verif.Derived.C70_nuisance`, `Verif.C71_never_raises`, `Verif.C72_refuted`, `Verif.C73_refuted`, `Verif.C74_refuted`, `Verif.C74_exponential_partial`, `Verif.C74_maxwell`, `Verif.C76_log_probs_repeatable`, `Verif.C76_probs_repeatable`, `Verif.C77_refuted`, `Verif.C77_partial`, `Verif.C78_refuted`, `Verif.C78_dm_ais_zero_batch`, `Verif.PMC.C80_refuted`, `Verif.PMC.C80_partial`, `Verif.PMC.C81_refuted`, `Verif.PMC.C81_few_samples`, `Verif.PMC.C82_mpmc`, `Verif.MHast.C83_mh`, `Verif.MHast.C83_sample`, `Verif.MHast.C84_mh`, `Verif.MHast.C84_terminates`, `Verif.Nested.C86_refuted`, `Verif.Nested.C86_partial`, `Verif.Nested.C87_portions`, `Verif.MultiNested.C88_refuted`, `Verif.MultiNested.C88_partial`, `Verif.MultiNested.C89_weights`, `Verif.C91_gmm_density`, `Verif.C92_egg_box`, `Verif.Derived.C93_refuted`, `Verif.Derived.C93_partial`, `Verif.Derived.C93_single_noise`, `Verif.Batch.C94_refuted`, `Verif.Batch.C94_partial`, `Verif.Batch.C94_single_value`, `Verif.LAIS.C95_refuted`, `Verif.LAIS.C95_partial`, `Verif.LAIS.normal_offsets`, `Verif.LAIS.C96_support`, `Verif.KDE.C85_mh`, `Verif.KDE.C85_nested`, `Verif.KDE.C85_multinested`, `Verif.KDE.C85_rejection_partial`, `Verif.KDE.C85_no_samples`, `Verif.KDE.C85_refuted`, `Verif.C98_dm`, `Verif.C98_lais`, `Verif.PMC.C98_partial`, `Verif.PMC.C98_refuted`, `Verif.MCInt.C75_bounds`, `Verif.MCInt.C75_unbiased`, `Verif.HiD.C90_refuted`, `Verif.HiD.C90_partial`, `Verif.HiD.C90_no_mass`, `Verif.BaseDist.C97_refuted`, `Verif.BaseDist.C97_partial`, `Verif.BaseDist.C97_shape`, `Verif.Delta.C99_refuted`, `Verif.Delta.C99_partial`, `Verif.MultiNested.C100_refuted`, `Verif.MultiNested.C100_partial`, `Verif.MultiNested.C100_interval`, `Verif.C101_refuted`, `Verif.C101_refuted_error`, `Verif.C101_partial`, `Verif.C102_refuted`, `Verif.C102_refuted_root`, `Verif.C102_partial`, `Verif.C103_refuted`, `Verif.C103_partial`, `Verif.C104_refuted`, `Verif.C104_partial`, `Verif.C105_uniform`, `Verif.C105_normal`, `Verif.C105_uniform_rows`, `Verif.C105_normal_rows`, `Verif.C106_mixture`, `Verif.C106_gmm`, `Verif.C107_refuted`, `Verif.C107_partial`, `Verif.C107_partial_entries`, `Verif.C108_refuted`, `Verif.C108_refuted_mixture`, `Verif.C108_partial`, `Verif.C108_partial_exponential`, `Verif.C109_greedy`, `Verif.C110_partial_population`, `Verif.C110_partial_mh`, `Verif.C110_refuted_nested`, `Verif.C110_refuted_multi`, `Verif.C110_refuted_hidaisee`, `Verif.MetricCompute.C111_partial_limit`, `Verif.MetricCompute.C111_partial_same_support`, `Verif.MetricCompute.C111_partial_diverges`, `Verif.MetricCompute.C111_partial_infinite`, `Verif.MetricCompute.C111_refuted`, `Verif.MetricCompute.C112_partial_limit`, `Verif.MetricCompute.C112_partial_same_support`, `Verif.MetricCompute.C112_refuted`, `Verif.MetricCompute.C113_partial_limit`, `Verif.MetricCompute.C113_partial_inside`, `Verif.MetricCompute.C113_refuted`, `Verif.MCInt.C114_consistent`, `Verif.C115_lais_consistent`, `Verif.C115_bounded_targets`, `Verif.C116_partial`, `Verif.C116_refuted`, `Verif.C116_fails_almost_surely`, `Verif.C117_consistent`, `Verif.C118_refuted`, `Verif.C118_partial`, `Verif.C119_refuted`, `Verif.C119_partial`, `Verif.PMC.C120_refuted`, `Verif.PMC.C120_partial`, `Verif.PMC.C120_batches`, `Verif.HiD.C121_refuted`, `Verif.HiD.C121_partial`, `Verif.HiD.C121_weights`, `Verif.C122_dm`, `Verif.C122_lais`, `Verif.C123_partial_number`, `Verif.C123_partial_dm`, `Verif.C123_partial_lais`, `Verif.C123_partial_mpmc`, `Verif.C123_partial_hidaisee`, `Verif.C123_partial_rejection`, `Verif.C123_partial_nested`, `Verif.C123_partial_multi`, `Verif.C123_partial_tree`, `Verif.C123_partial_tree_mixture`, `Verif.MHast.C123_partial_mh`, `Verif.MHast.C123_refuted`, `Verif.C124_partial_uniform`, `Verif.C124_partial_exponential`, `Verif.C124_partial_laplace`, `Verif.C124_partial_maxwell`, `Verif.C124_partial_pareto`, `Verif.C124_partial_normal`, `Verif.C124_partial_banana`, `Verif.C124_refuted`, `Verif.Rejection.C125_accept`, `Verif.Rejection.C125_samples`, `Verif.Rejection.C125_iff`, `Verif.SearchSpace.C126_partial`, `Verif.SearchSpace.C126_partial_integers`, `Verif.SearchSpace.C126_refuted`, `Verif.Bench.C127_partial`, `Verif.Bench.C127_refuted`, `Verif.Plot.C128_partial`, `Verif.Plot.C128_partial_rows`, `Verif.Plot.C128_refuted`, `Verif.Plot.C129_partial`, `Verif.Plot.C129_refuted`, `Verif.C130_partial_random`, `Verif.C130_partial_egg_box`, `Verif.C130_refuted_default`, `Verif.C130_refuted`, `Verif.MHast.C131_limit`, `Verif.MHast.C131_partial`, `Verif.MHast.C131_refuted`, `Verif.Rejection.C132_limit`, `Verif.Rejection.C132_consistent`, `Verif.Rejection.C133_refuted`, `Verif.Rejection.C133_partial`, `Verif.Nested.C134_refuted`, `Verif.Nested.C134_partial`, `Verif.MultiNested.C134_refuted_multi`, `Verif.MultiNested.C134_partial_multi`, `Verif.Nested.C135_nested`, `Verif.Nested.C135_limit`, `Verif.MultiNested.C135_multi`, `Verif.Bench.C136_read_back`, `Verif.KDE.C137_refuted`, `Verif.KDE.C137_partial`, `Verif.HiD.C138_refuted`, `Verif.HiD.C138_partial`, `Verif.TPSampler.C139_refuted`, `Verif.TPSampler.C139_partial`, `Verif.TPSampler.C139_mixture_partial`, `Verif.Rejection.C139_partial`, `Verif.MHast.C139_partial`, `Verif.Nested.C139_partial`, `Verif.MultiNested.C139_partial`, `Verif.LAIS.C139_partial`, `Verif.PMC.C139_partial`, `Verif.HiD.C139_partial`, `Verif.TPSampler.C140_refuted`, `Verif.TPSampler.C140_ness_partial`, `Verif.Bench.Bm.C141_reuse`, `Verif.Bench.Bm.C142_refuted`, `Verif.Bench.Bm.C142_partial`, `Verif.Bench.Bm.C142_config`, `Verif.Bench.Bm.C143_refuted`, `Verif.Bench.Bm.C143_partial`, `Verif.Bench.Bm.C144_refuted`, `Verif.Bench.Bm.C144_partial`, `Verif.ToDict.C145_refuted`, `Verif.ToDict.C145_partial`, `Verif.ToDict.C145_load`, `Verif.ToDict.C145_names`, `Verif.Wait.C146_refuted`, `Verif.Wait.C146_partial`, `Verif.Wait.C146_ready_partial`, `Verif.Contour.C147_refuted`, `Verif.Contour.C147_partial`, `Verif.Rejection.C148_refuted`, `Verif.Rejection.C148_partial`, `Verif.Nonparam.C149_refuted`, `Verif.Nonparam.C149_partial`, `Verif.PMC.C150_refuted`, `Verif.PMC.C150_partial`, `Verif.C151_dm`, `Verif.C151_lais`, `Verif.C151_mpmc`, `Verif.C151_mh`, `Verif.C151_nested`, `Verif.C151_multinested`, `Verif.HiD.C151_hidaisee_partial`, `Verif.HiD.C151_refuted`, `Verif.C151_tp_partial`, `Verif.C151_tp_refuted_weights`, `Verif.C151_tp_refuted_resampling`, `Verif.C152_mh`, `Verif.C152_nested`, `Verif.C152_multiNested`, `Verif.C152_dm`, `Verif.C152_lais`, `Verif.C152_hidaisee`, `Verif.C153_partial`, `Verif.C153_refuted`, `Verif.C154_mpmc`, `Verif.MHast.C154_mh`, `Verif.HiD.C154_hidaisee`, `Verif.Rejection.C154_rejection_partial`, `Verif.Rejection.C154_rejection_refuted`, `Verif.C154_tp_partial`, `Verif.C154_tp_refuted`, `Verif.Viz.C155_partial`, `Verif.Viz.C155_refuted_point`, `Verif.Bench.Bm.C156_partial`, `Verif.Bench.Bm.C156_refuted`, `Verif.C157_rejection`, `Verif.C157_mh`, `Verif.C157_dm`, `Verif.C157_lais`, `Verif.C157_hidaisee`, `Verif.C157_proposal`, `Verif.C157_dm_normal`, `Verif.C157_lais_normal`, `Verif.C157_one_width`, `Verif.C158_rejection`, `Verif.C158_mh`, `Verif.C158_nested`, `Verif.C158_multiNested`, `Verif.C158_dm`, `Verif.C158_lais`, `Verif.C158_hidaisee`, `Verif.C158_proposal`
* **propext, Quot.sound**: `Verif.C01_length_mismatch`, `Verif.C21_elapsed_time`, `Verif.C22_partial`, `Verif.C59_dm`, `Verif.C59_lais`, `Verif.C60_ais`, `Verif.C60_tp`, `Verif.C60_hidaisee`, `Verif.Reader.C66_never_blocks`, `Verif.C79_refuted`, `Verif.C108_refuted_empty`, `Verif.C110_partial_ais`, `Verif.C110_partial_tree`, `Verif.DM.C139_partial`, `Verif.TPSampler.C140_partial`, `Verif.C153_flat`, `Verif.C153_columns`, `Verif.C154_dm`, `Verif.C154_lais`
* **propext**: `Verif.Reader.C66_read_in_order`, `Verif.Viz.C155_refuted_axis`
