{
 "claims": [
  {
   "property": "C01",
   "status": "proved",
   "theorems": [
    "Verif.C01_set_weights_normalises",
    "Verif.C01_length_mismatch"
   ],
   "note": "all weight lists over any ordered field extended with nan/inf"
  },
  {
   "property": "C02",
   "status": "partial",
   "theorems": [
    "Verif.C02_refuted",
    "Verif.C02_partial"
   ],
   "note": "the code violates the property (weights stay zero); negation proved with a witness, partial theorem states what happens"
  },
  {
   "property": "C03",
   "status": "proved",
   "theorems": [
    "Verif.C03_prob_logprob_agree"
   ],
   "note": "exact real arithmetic; component log densities real or -inf"
  },
  {
   "property": "C04",
   "status": "proved",
   "theorems": [
    "Verif.C04_mixture_is_density"
   ],
   "note": "any measure space"
  },
  {
   "property": "C05",
   "status": "proved",
   "theorems": [
    "Verif.C05_sample_positive_components"
   ],
   "note": "numpy multinomial modelled from its C source, Bernoulli outcomes universally quantified"
  },
  {
   "property": "C06",
   "status": "proved",
   "theorems": [
    "Verif.C06_uniform_density",
    "Verif.C06_bad_radius"
   ],
   "note": "real arithmetic, every dimension, every accepted centre/radius"
  },
  {
   "property": "C07",
   "status": "partial",
   "theorems": [
    "Verif.C07_refuted",
    "Verif.C07_refuted_large",
    "Verif.C07_partial"
   ],
   "note": "see DESIGN: the code violates the property as stated"
  },
  {
   "property": "C08",
   "status": "partial",
   "theorems": [
    "Verif.C08_refuted",
    "Verif.C08_partial"
   ],
   "note": "see DESIGN: the code violates the property as stated"
  },
  {
   "property": "C15",
   "status": "partial",
   "theorems": [
    "Verif.C15_uniform_batch",
    "Verif.Batch.C15_partial",
    "Verif.Batch.C15_laplace",
    "Verif.Batch.C15_mixture",
    "Verif.Batch.C15_refuted"
   ],
   "note": "the code violates the property: exponential.prob on a row outside the support depends on the other rows, and exponential and Maxwell prob reject vectors; holds for the other shipped densities and for mixtures of such"
  },
  {
   "property": "C26",
   "status": "proved",
   "theorems": [
    "Verif.C26_bookkeeping"
   ],
   "note": "every finite history of tree operations, every dimension"
  },
  {
   "property": "C27",
   "status": "proved",
   "theorems": [
    "Verif.C27_tiling"
   ],
   "note": "every history, every dimension, any ordered field"
  },
  {
   "property": "C28",
   "status": "proved",
   "theorems": [
    "Verif.C28_prob_pointwise",
    "Verif.C28_prob_integrates"
   ],
   "note": "haar kernel"
  },
  {
   "property": "C29",
   "status": "partial",
   "theorems": [
    "Verif.C29_refuted",
    "Verif.C29_partial"
   ],
   "note": "the code violates the property once the root is expanded (find restarts at the root for ever)"
  },
  {
   "property": "C32",
   "status": "proved",
   "theorems": [
    "Verif.C32_expand"
   ],
   "note": "every history, every dimension"
  },
  {
   "property": "C30",
   "status": "partial",
   "theorems": [
    "Verif.C30_refuted",
    "Verif.C30_partial"
   ],
   "note": "the code violates the property when a leaf other than the last holds several samples; refuted on a run of importance_sample"
  },
  {
   "property": "C31",
   "status": "proved",
   "theorems": [
    "Verif.C31_samples_in_leaf"
   ],
   "note": "simple scheme, haar kernel, numeric ess_target, any number of calls"
  },
  {
   "property": "C33",
   "status": "proved",
   "theorems": [
    "Verif.C33_unbiased",
    "Verif.C33_tree"
   ],
   "note": "real arithmetic, independent uniform draws as product measure"
  },
  {
   "property": "C34",
   "status": "proved",
   "theorems": [
    "Verif.C34_expand_nodes"
   ],
   "note": "candidates without repetition, as the caller passes them"
  },
  {
   "property": "C71",
   "status": "proved",
   "theorems": [
    "Verif.C71_never_raises"
   ],
   "note": "simple scheme, haar kernel"
  },
  {
   "property": "C72",
   "status": "partial",
   "theorems": [
    "Verif.C72_refuted"
   ],
   "note": "the code violates the property: every call raises TypeError"
  },
  {
   "property": "C09",
   "status": "proved",
   "theorems": [
    "Verif.C09_normal_density"
   ],
   "note": "any positive definite covariance, exact real arithmetic"
  },
  {
   "property": "C10",
   "status": "proved",
   "theorems": [
    "Verif.C10_set_moments"
   ],
   "note": "histories may contain rejected calls"
  },
  {
   "property": "C11",
   "status": "partial",
   "theorems": [
    "Verif.C11_refuted",
    "Verif.C11_partial"
   ],
   "note": "the code violates the property: for d=1 the mass is 1 only for mean 1, and log_prob is 0 outside the support; unit means proved"
  },
  {
   "property": "C12",
   "status": "partial",
   "theorems": [
    "Verif.C12_refuted",
    "Verif.C12_partial"
   ],
   "note": "violated by the Maxwell density outside its support; proved elsewhere"
  },
  {
   "property": "C13",
   "status": "partial",
   "theorems": [
    "Verif.C13_refuted",
    "Verif.C13_partial",
    "Verif.C13_exponential"
   ],
   "note": "violated by BenchDenUniform (density 1/2 on (-1/2,3/2]); Laplace, Maxwell, Pareto, exponential proved"
  },
  {
   "property": "C14",
   "status": "proved",
   "theorems": [
    "Verif.C14_kernels",
    "Verif.C14_normal_kernel"
   ],
   "note": ""
  },
  {
   "property": "C73",
   "status": "partial",
   "theorems": [
    "Verif.C73_refuted",
    "Verif.C09_normal_density"
   ],
   "note": "violated: -I in dimension 2 is accepted; proved for positive definite covariances"
  },
  {
   "property": "C74",
   "status": "partial",
   "theorems": [
    "Verif.C74_refuted",
    "Verif.C74_exponential_partial",
    "Verif.C74_maxwell"
   ],
   "note": "violated by the exponential on batches without a row in the support (IndexError)"
  },
  {
   "property": "C16",
   "status": "proved",
   "theorems": [
    "Verif.C16_kl_nonneg"
   ],
   "note": "all extended real arrays"
  },
  {
   "property": "C17",
   "status": "proved",
   "theorems": [
    "Verif.C17_kl_zero_iff_proportional"
   ],
   "note": ""
  },
  {
   "property": "C18",
   "status": "proved",
   "theorems": [
    "Verif.C18_jsd",
    "Verif.C18_infinite"
   ],
   "note": "arrays with +inf handled separately"
  },
  {
   "property": "C19",
   "status": "partial",
   "theorems": [
    "Verif.C19_refuted",
    "Verif.C19_partial"
   ],
   "note": "the code violates the property: both divergences return 0 on disjoint supports; compute_from_probs returns inf"
  },
  {
   "property": "C20",
   "status": "proved",
   "theorems": [
    "Verif.C20_evmse"
   ],
   "note": "any ordered field"
  },
  {
   "property": "C21",
   "status": "proved",
   "theorems": [
    "Verif.C21_elapsed_time"
   ],
   "note": ""
  },
  {
   "property": "C22",
   "status": "partial",
   "theorems": [
    "Verif.C22_refuted",
    "Verif.C22_partial"
   ],
   "note": "violated by the memory metric; elapsed time proved"
  },
  {
   "property": "C76",
   "status": "proved",
   "theorems": [
    "Verif.C76_log_probs_repeatable",
    "Verif.C76_probs_repeatable"
   ],
   "note": ""
  },
  {
   "property": "C23",
   "status": "proved",
   "theorems": [
    "Verif.C23_weight_ness"
   ],
   "note": ""
  },
  {
   "property": "C24",
   "status": "proved",
   "theorems": [
    "Verif.C24_perplexity_ness",
    "Verif.C24_zero_weight_nan"
   ],
   "note": "a zero weight makes the reported value NaN"
  },
  {
   "property": "C25",
   "status": "partial",
   "theorems": [
    "Verif.C25_refuted",
    "Verif.C25_partial",
    "Verif.C25_one_dim",
    "Verif.C25_stops"
   ],
   "note": "the mean is taken over all coordinates, so translations by a vector with unequal entries change the result in two or more dimensions; scaling, uniform translations, one dimension and the stopping rule are proved"
  },
  {
   "property": "C77",
   "status": "partial",
   "theorems": [
    "Verif.C77_refuted",
    "Verif.C77_partial"
   ],
   "note": "the code violates the property: negative, infinite, larger than one and NaN values are reachable"
  },
  {
   "property": "C38",
   "status": "proved",
   "theorems": [
    "Verif.C38_dm_ais",
    "Verif.C38_terminates"
   ],
   "note": ""
  },
  {
   "property": "C39",
   "status": "proved",
   "theorems": [
    "Verif.C39_dm_resample"
   ],
   "note": ""
  },
  {
   "property": "C40",
   "status": "proved",
   "theorems": [
    "Verif.C40_unbiased",
    "Verif.C40_unbiased_normal",
    "Verif.C40_normal_proposals"
   ],
   "note": "points are drawn independently, K from each proposal; the average over the batch list built by the model is integrated"
  },
  {
   "property": "C41",
   "status": "proved",
   "theorems": [
    "Verif.C41_lais_in_space"
   ],
   "note": ""
  },
  {
   "property": "C42",
   "status": "proved",
   "theorems": [
    "Verif.C42_lais",
    "Verif.C42_lais_weights"
   ],
   "note": ""
  },
  {
   "property": "C78",
   "status": "partial",
   "theorems": [
    "Verif.C78_refuted",
    "Verif.C78_dm_ais_zero_batch"
   ],
   "note": "the code violates the property: np.random.multinomial raises ValueError on NaN probabilities; the second theorem shows it for every state and zero batch"
  },
  {
   "property": "C79",
   "status": "partial",
   "theorems": [
    "Verif.C79_refuted",
    "Verif.C38_dm_ais",
    "Verif.C42_lais"
   ],
   "note": "the code violates the property for N = K = 1; N*K >= 2 is covered by C38 and C42"
  },
  {
   "property": "C43",
   "status": "proved",
   "theorems": [
    "Verif.PMC.C43_adapt"
   ],
   "note": "batches with normalised weights and posteriors, as importance_sample builds them (Verif.PMC.rows_good, Verif.PMC.rowsReal_batch)"
  },
  {
   "property": "C44",
   "status": "partial",
   "theorems": [
    "Verif.PMC.C44_refuted",
    "Verif.PMC.C44_partial"
   ],
   "note": "the code violates the property: weights are normalised per batch and add up to the number of batches"
  },
  {
   "property": "C45",
   "status": "partial",
   "theorems": [
    "Verif.PMC.C45_refuted",
    "Verif.PMC.C45_partial"
   ],
   "note": "the code violates the property: it stores the unweighted scatter matrix, which dominates the weighted covariance"
  },
  {
   "property": "C80",
   "status": "partial",
   "theorems": [
    "Verif.PMC.C80_refuted",
    "Verif.PMC.C80_partial"
   ],
   "note": "the code violates the property: a batch with zero target leaves undefined proposals for ever"
  },
  {
   "property": "C81",
   "status": "partial",
   "theorems": [
    "Verif.PMC.C81_refuted",
    "Verif.PMC.C81_few_samples"
   ],
   "note": "the code violates the property: K=1 always raises AssertionError, K <= d raises unless the failsafe for large covariances triggers (exact arithmetic)"
  },
  {
   "property": "C82",
   "status": "proved",
   "theorems": [
    "Verif.PMC.C82_mpmc"
   ],
   "note": ""
  },
  {
   "property": "C46",
   "status": "proved",
   "theorems": [
    "Verif.MHast.C46_mh"
   ],
   "note": ""
  },
  {
   "property": "C47",
   "status": "partial",
   "theorems": [
    "Verif.MHast.C47_refuted",
    "Verif.MHast.C47_partial"
   ],
   "note": "the code violates the property: sample(n) returns n*n samples"
  },
  {
   "property": "C48",
   "status": "partial",
   "theorems": [
    "Verif.MHast.C48_refuted",
    "Verif.MHast.C48_detailed_balance",
    "Verif.MHast.C48_partial"
   ],
   "note": "the code violates the property: rejected moves are retried instead of staying, so the chain leaves target times acceptance probability invariant; targets vanishing on the border of the search space"
  },
  {
   "property": "C49",
   "status": "partial",
   "theorems": [
    "Verif.MHast.C49_refuted",
    "Verif.MHast.C49_step",
    "Verif.MHast.C49_partial"
   ],
   "note": "the code violates the property when the clock runs out during a step; holds otherwise"
  },
  {
   "property": "C83",
   "status": "proved",
   "theorems": [
    "Verif.MHast.C83_mh",
    "Verif.MHast.C83_sample"
   ],
   "note": ""
  },
  {
   "property": "C84",
   "status": "proved",
   "theorems": [
    "Verif.MHast.C84_mh",
    "Verif.MHast.C84_terminates"
   ],
   "note": ""
  },
  {
   "property": "C50",
   "status": "proved",
   "theorems": [
    "Verif.Rejection.C50_rejection"
   ],
   "note": ""
  },
  {
   "property": "C51",
   "status": "proved",
   "theorems": [
    "Verif.Rejection.C51_accept",
    "Verif.Rejection.C51_samples"
   ],
   "note": "target bounded by scaling times proposal density, both densities; the new samples are independent with the normalised target law"
  },
  {
   "property": "C52",
   "status": "partial",
   "theorems": [
    "Verif.Rejection.C52_refuted",
    "Verif.Rejection.C52_partial",
    "Verif.Rejection.C52_first_partial"
   ],
   "note": "the code violates the property: every round counts n proposals although fewer are drawn"
  },
  {
   "property": "C53",
   "status": "proved",
   "theorems": [
    "Verif.Nested.C53_nested",
    "Verif.Nested.C53_discard"
   ],
   "note": "about the recorded likelihoods and the live points; that the returned array holds the discarded points is C86; finite valued targets"
  },
  {
   "property": "C54",
   "status": "proved",
   "theorems": [
    "Verif.Nested.C54_nested"
   ],
   "note": "finite valued targets"
  },
  {
   "property": "C55",
   "status": "partial",
   "theorems": [
    "Verif.Nested.C55_refuted",
    "Verif.Nested.C55_partial",
    "Verif.Nested.C55_half"
   ],
   "note": "the code violates the property: the first prior mass increment is the whole prior"
  },
  {
   "property": "C56",
   "status": "partial",
   "theorems": [
    "Verif.Nested.C56_refuted",
    "Verif.Nested.C56_partial"
   ],
   "note": "the code violates the property: candidates after the first are not clipped; holds for targets that vanish outside the search space only"
  },
  {
   "property": "C86",
   "status": "partial",
   "theorems": [
    "Verif.Nested.C86_refuted",
    "Verif.Nested.C86_partial"
   ],
   "note": "the code violates the property: the first sample is a view of the live points and is overwritten by its replacement"
  },
  {
   "property": "C87",
   "status": "proved",
   "theorems": [
    "Verif.Nested.C87_portions"
   ],
   "note": ""
  },
  {
   "property": "C57",
   "status": "proved",
   "theorems": [
    "Verif.MultiNested.C57_clustering"
   ],
   "note": "exact arithmetic; KMeans is an arbitrary labelling"
  },
  {
   "property": "C58",
   "status": "partial",
   "theorems": [
    "Verif.MultiNested.C58_refuted",
    "Verif.MultiNested.C58_refuted_again",
    "Verif.MultiNested.C58_partial"
   ],
   "note": "the code violates the property: the number of new samples is rounded to a multiple of the number of ellipsoids and is never zero"
  },
  {
   "property": "C88",
   "status": "partial",
   "theorems": [
    "Verif.MultiNested.C88_refuted",
    "Verif.MultiNested.C88_partial"
   ],
   "note": "the code violates the property with several ellipsoids; holds for a single ellipsoid larger than the convergence radius"
  },
  {
   "property": "C89",
   "status": "proved",
   "theorems": [
    "Verif.MultiNested.C89_weights"
   ],
   "note": "finite valued targets"
  },
  {
   "property": "C35",
   "status": "proved",
   "theorems": [
    "Verif.HiD.C35_tiling"
   ],
   "note": "boxes half open as in the code's density"
  },
  {
   "property": "C36",
   "status": "proved",
   "theorems": [
    "Verif.HiD.C36_split",
    "Verif.HiD.C36_calls"
   ],
   "note": "histories of calls that returned"
  },
  {
   "property": "C37",
   "status": "partial",
   "theorems": [
    "Verif.HiD.C37_refuted",
    "Verif.HiD.C37_partial"
   ],
   "note": "the code violates the property: the direct parent of the visited leaf is skipped at depth two or more; every other ancestor, and the root, is refreshed"
  },
  {
   "property": "C59",
   "status": "partial",
   "theorems": [
    "Verif.C59_dm",
    "Verif.C59_lais",
    "Verif.C59_mpmc",
    "Verif.C59_rejection",
    "Verif.C59_mh",
    "Verif.C59_hidaisee",
    "Verif.C59_nested_partial",
    "Verif.C59_refuted"
   ],
   "note": "nested sampling violates it: every call re-evaluates all live points; holds for the other samplers"
  },
  {
   "property": "C60",
   "status": "partial",
   "theorems": [
    "Verif.C60_ais",
    "Verif.C60_tp",
    "Verif.C60_hidaisee",
    "Verif.C60_mpmc",
    "Verif.C60_rejection",
    "Verif.C60_nested",
    "Verif.C60_multinested",
    "Verif.C60_mh_partial",
    "Verif.C60_refuted"
   ],
   "note": "Metropolis-Hastings violates it: reset keeps the current sample of the chain; holds for all other samplers"
  },
  {
   "property": "C61",
   "status": "proved",
   "theorems": [
    "Verif.Bench.C61_evaluation",
    "Verif.Bench.C61_calls"
   ],
   "note": "time limit not negative; a call that raises ends the evaluation, then the file has complete repetitions and the beginning of one"
  },
  {
   "property": "C62",
   "status": "partial",
   "theorems": [
    "Verif.Bench.C62_partial",
    "Verif.Bench.C62_refuted"
   ],
   "note": "the code violates it: the sampling time it compares with the limit is never updated; bound over all calls proved instead"
  },
  {
   "property": "C63",
   "status": "partial",
   "theorems": [
    "Verif.Bench.C63_partial",
    "Verif.Bench.C63_refuted",
    "Verif.Bench.C63_refuted_width"
   ],
   "note": "fails for the default metrics (NESS announced twice, written once), unknown or repeated metrics, and a NESS of nine or more characters; holds otherwise"
  },
  {
   "property": "C64",
   "status": "partial",
   "theorems": [
    "Verif.Bench.C64_evaluation",
    "Verif.Bench.C64_run",
    "Verif.Bench.C64_refuted"
   ],
   "note": "holds for methods whose reset forgets the past (see C60) and metrics other than time and memory; Metropolis-Hastings violates it, its first point is drawn by the constructor"
  },
  {
   "property": "C65",
   "status": "proved",
   "theorems": [
    "Verif.C65_time_to_hms"
   ],
   "note": "exact arithmetic in any ordered field with floor; negative times included"
  },
  {
   "property": "C66",
   "status": "proved",
   "theorems": [
    "Verif.Reader.C66_read_in_order",
    "Verif.Reader.C66_never_blocks"
   ],
   "note": "every interleaving of the two threads; queue operations are atomic"
  },
  {
   "property": "C67",
   "status": "partial",
   "theorems": [
    "Verif.Reader.C67_refuted",
    "Verif.Reader.C67_partial",
    "Verif.Reader.C67_no_keep",
    "Verif.Reader.C67_never_back"
   ],
   "note": "the code violates the first half: with keep_last a line arriving between the emptiness test and the put back ends up in front of an older one; it holds for calls without keep_last and for histories without that race; never going back in time holds for all executions"
  },
  {
   "property": "C68",
   "status": "proved",
   "theorems": [
    "Verif.C68_make_grid",
    "Verif.C68_reshape",
    "Verif.C68_three_dims"
   ],
   "note": "every dimension; in three dimensions the layout by shape is wrong (C68_three_dims)"
  },
  {
   "property": "C69",
   "status": "partial",
   "theorems": [
    "Verif.C69_refuted",
    "Verif.C69_partial",
    "Verif.C69_large_variances"
   ],
   "note": "the code violates the property: it takes five variances for five standard deviations; holds with variances, and in full when all variances are at least 1"
  },
  {
   "property": "C70",
   "status": "partial",
   "theorems": [
    "Verif.Derived.C70_refuted",
    "Verif.Derived.C70_abc",
    "Verif.Derived.C70_posterior",
    "Verif.Derived.C70_noisy",
    "Verif.Derived.C70_noisy_sample",
    "Verif.Derived.C70_nuisance"
   ],
   "note": "prob and log_prob are as stated for ABC and noisy functions and sample for the nuisance generator; ABC.sample is unguarded, noisy sample raises TypeError instead of ValueError, and the nuisance generator's prob is unguarded"
  },
  {
   "property": "C91",
   "status": "proved",
   "theorems": [
    "Verif.C91_gmm_density"
   ],
   "note": "diagonal covariances, as the class builds them"
  },
  {
   "property": "C92",
   "status": "proved",
   "theorems": [
    "Verif.C92_egg_box"
   ],
   "note": "every dimension"
  },
  {
   "property": "C94",
   "status": "partial",
   "theorems": [
    "Verif.Batch.C94_refuted",
    "Verif.Batch.C94_partial",
    "Verif.Batch.C94_single_value"
   ],
   "note": "the code violates the property with a Laplace component (log_prob raises for two points) and with an exponential component (mass outside the support); holds for normal and uniform components"
  },
  {
   "property": "C93",
   "status": "partial",
   "theorems": [
    "Verif.Derived.C93_refuted",
    "Verif.Derived.C93_partial",
    "Verif.Derived.C93_single_noise"
   ],
   "note": "the code violates the property: prob subtracts x instead of function(x); holds for the identity function"
  },
  {
   "property": "C95",
   "status": "partial",
   "theorems": [
    "Verif.LAIS.C95_refuted",
    "Verif.LAIS.C95_partial",
    "Verif.LAIS.normal_offsets"
   ],
   "note": "the code violates the property for targets with mass up to the border: clipping puts positive probability on the border; holds for targets that vanish on the border"
  },
  {
   "property": "C96",
   "status": "proved",
   "theorems": [
    "Verif.LAIS.C96_support"
   ],
   "note": "acceptance draws not negative"
  },
  {
   "property": "C85",
   "status": "partial",
   "theorems": [
    "Verif.KDE.C85_mh",
    "Verif.KDE.C85_nested",
    "Verif.KDE.C85_multinested",
    "Verif.KDE.C85_rejection_partial",
    "Verif.KDE.C85_no_samples",
    "Verif.KDE.C85_refuted"
   ],
   "note": "rejection sampling violates it: prob reports the envelope scaling * proposal while log_prob reports the kernel density estimate; holds for the other samplers"
  },
  {
   "property": "C98",
   "status": "partial",
   "theorems": [
    "Verif.C98_dm",
    "Verif.C98_lais",
    "Verif.PMC.C98_partial",
    "Verif.PMC.C98_refuted"
   ],
   "note": "M-PMC violates it after a batch that misses the support of the target; holds for the others and for M-PMC as long as no weight is undefined"
  },
  {
   "property": "C75",
   "status": "proved",
   "theorems": [
    "Verif.MCInt.C75_bounds",
    "Verif.MCInt.C75_unbiased"
   ],
   "note": "real arithmetic; generator calls are independent uniform draws"
  },
  {
   "property": "C90",
   "status": "partial",
   "theorems": [
    "Verif.HiD.C90_refuted",
    "Verif.HiD.C90_partial",
    "Verif.HiD.C90_no_mass"
   ],
   "note": "the code violates the property when no sample has positive target density: the reported density is 0 everywhere; holds in all other cases"
  },
  {
   "property": "C97",
   "status": "partial",
   "theorems": [
    "Verif.BaseDist.C97_refuted",
    "Verif.BaseDist.C97_partial",
    "Verif.BaseDist.C97_shape"
   ],
   "note": "the code violates the property: each setter changes only its own function; they agree when one function is None, and with both set exactly if they are given consistently"
  },
  {
   "property": "C99",
   "status": "partial",
   "theorems": [
    "Verif.Delta.C99_refuted",
    "Verif.Delta.C99_partial"
   ],
   "note": "the code violates the property: np.isclose makes the density infinite near the centre and integral raises NameError for every box; the rest holds"
  },
  {
   "property": "C100",
   "status": "partial",
   "theorems": [
    "Verif.MultiNested.C100_refuted",
    "Verif.MultiNested.C100_partial",
    "Verif.MultiNested.C100_interval"
   ],
   "note": "the code violates the property: the determinant is used instead of its square root; right exactly if the determinant is 1, and in one dimension for the interval of inflate standard deviations"
  },
  {
   "property": "C101",
   "status": "partial",
   "theorems": [
    "Verif.C101_refuted",
    "Verif.C101_refuted_error",
    "Verif.C101_partial"
   ],
   "note": "the code violates the property: no call for more than 2^d samples ever returns within its time, find recurses forever once the root is expanded; calls for at most 2^d samples deliver"
  },
  {
   "property": "C102",
   "status": "partial",
   "theorems": [
    "Verif.C102_refuted",
    "Verif.C102_refuted_root",
    "Verif.C102_partial"
   ],
   "note": "the code violates the property: without leaf resampling all weights of a first call are 0 or NaN, and while only the root is sampled the third weight is a quotient of target values; with leaf resampling the weights are right"
  },
  {
   "property": "C103",
   "status": "partial",
   "theorems": [
    "Verif.C103_refuted",
    "Verif.C103_partial"
   ],
   "note": "the code violates the property: the density of the unscaled prototype is used, so for leaves of different radius the weights are never in the right proportion; holds when all leaves have the same radius"
  },
  {
   "property": "C104",
   "status": "partial",
   "theorems": [
    "Verif.C104_refuted",
    "Verif.C104_partial"
   ],
   "note": "the code violates the property: variances r/4, r and 2 r^2 are used for sampling, reported density and resampling; each distribution is identified"
  },
  {
   "property": "C105",
   "status": "proved",
   "theorems": [
    "Verif.C105_uniform",
    "Verif.C105_normal",
    "Verif.C105_uniform_rows",
    "Verif.C105_normal_rows"
   ],
   "note": "laws of the numpy generators (uniform on the unit cube, standard normal vector) are explicit measures; numpy's SVD algorithm for the normal"
  },
  {
   "property": "C106",
   "status": "proved",
   "theorems": [
    "Verif.C106_mixture",
    "Verif.C106_gmm"
   ],
   "note": "joint law of all n points; the components are drawn with numpy's sequence of binomials from independent Bernoulli events"
  },
  {
   "property": "C107",
   "status": "partial",
   "theorems": [
    "Verif.C107_refuted",
    "Verif.C107_partial",
    "Verif.C107_partial_entries"
   ],
   "note": "the code violates the property: exponential with mean other than 1, and the accepted covariance -I in two dimensions; for the exponential in one dimension it holds exactly when the mean is 1"
  },
  {
   "property": "C108",
   "status": "partial",
   "theorems": [
    "Verif.C108_refuted",
    "Verif.C108_refuted_mixture",
    "Verif.C108_refuted_empty",
    "Verif.C108_partial",
    "Verif.C108_partial_exponential"
   ],
   "note": "the code violates the property: the exponential distribution returns a vector or raises, so mixtures with such a component raise; base class fallback is missing; holds for uniform, normal, delta and mixtures of well behaved components with n > 0"
  },
  {
   "property": "C109",
   "status": "proved",
   "theorems": [
    "Verif.C109_greedy"
   ],
   "note": "simple scheme, numeric ess_target; the order claim assumes that no importance volume is nan (then there is no order)"
  },
  {
   "property": "C110",
   "status": "partial",
   "theorems": [
    "Verif.C110_partial_ais",
    "Verif.C110_partial_population",
    "Verif.C110_partial_mh",
    "Verif.C110_partial_tree",
    "Verif.C110_refuted_nested",
    "Verif.C110_refuted_multi",
    "Verif.C110_refuted_hidaisee"
   ],
   "note": "holds for DM-AIS, layered AIS, M-PMC, rejection, Metropolis-Hastings and the tree pyramid schemes; nested and multi-nested restart the limit for every point, HiDaisee never reads the clock"
  },
  {
   "property": "C111",
   "status": "partial",
   "theorems": [
    "Verif.MetricCompute.C111_partial_limit",
    "Verif.MetricCompute.C111_partial_same_support",
    "Verif.MetricCompute.C111_partial_diverges",
    "Verif.MetricCompute.C111_partial_infinite",
    "Verif.MetricCompute.C111_refuted"
   ],
   "note": "the code violates the property when one density has mass where the other is 0 or outside the support box of p: the limit is the divergence of the densities conditioned on the common region; it is right when both are positive at the same points of the box, also when the divergence is infinite (the values then tend to infinity)"
  },
  {
   "property": "C112",
   "status": "partial",
   "theorems": [
    "Verif.MetricCompute.C112_partial_limit",
    "Verif.MetricCompute.C112_partial_same_support",
    "Verif.MetricCompute.C112_refuted"
   ],
   "note": "the code violates the property when one density has mass where the other is 0 or outside the support box of p: the limit is the divergence of the densities conditioned on the common region; right when both are positive at the same points of the box"
  },
  {
   "property": "C113",
   "status": "partial",
   "theorems": [
    "Verif.MetricCompute.C113_partial_limit",
    "Verif.MetricCompute.C113_partial_inside",
    "Verif.MetricCompute.C113_refuted"
   ],
   "note": "the code violates the property when q has mass outside the support box of p: the limit uses the means of the densities conditioned on the box; right when both vanish outside the box"
  },
  {
   "property": "C114",
   "status": "proved",
   "theorems": [
    "Verif.MCInt.C114_consistent"
   ],
   "note": "independent uniform draws; densities bounded on the box"
  },
  {
   "property": "C115",
   "status": "proved",
   "theorems": [
    "Verif.C115_lais_consistent",
    "Verif.C115_bounded_targets"
   ],
   "note": "points from the proposals with independent standard normal numbers, any law for the numbers of the Metropolis steps; the second theorem discharges the variance condition for bounded targets of bounded support"
  },
  {
   "property": "C116",
   "status": "partial",
   "theorems": [
    "Verif.C116_partial",
    "Verif.C116_refuted",
    "Verif.C116_fails_almost_surely"
   ],
   "note": "the code violates the property: for every target that vanishes outside a bounded box the call raises ValueError with probability one once enough samples are asked for; positive targets always deliver"
  },
  {
   "property": "C117",
   "status": "proved",
   "theorems": [
    "Verif.C117_consistent"
   ],
   "note": "simple scheme, haar kernel, ess_target > 1, no time limit reached; draws in the open interval"
  },
  {
   "property": "C118",
   "status": "partial",
   "theorems": [
    "Verif.C118_refuted",
    "Verif.C118_partial"
   ],
   "note": "the code violates the property: a half whose first sample has density 0 is never visited again, with probability at least 1/4 for the target of the witness; the estimate is right whenever the leaves are small, and C117 shows that they become small for positive targets"
  },
  {
   "property": "C119",
   "status": "partial",
   "theorems": [
    "Verif.C119_refuted",
    "Verif.C119_partial"
   ],
   "note": "the code violates the property: without leaf resampling a further call mixes normalised and raw weights; holds with leaf resampling for all calls, and for the first call of a new sampler without"
  },
  {
   "property": "C120",
   "status": "partial",
   "theorems": [
    "Verif.PMC.C120_refuted",
    "Verif.PMC.C120_partial",
    "Verif.PMC.C120_batches"
   ],
   "note": "the code violates the property: weights are normalised per batch, so samples of different batches are on different scales; holds for samples of the same batch, with the exact formula for all weights"
  },
  {
   "property": "C121",
   "status": "partial",
   "theorems": [
    "Verif.HiD.C121_refuted",
    "Verif.HiD.C121_partial",
    "Verif.HiD.C121_weights"
   ],
   "note": "the code violates the property: the samples of a leaf together weigh the number of samples times the estimated mass of the leaf; holds when all leaves with mass have equally many samples; exact total weight of every leaf proved for all calls"
  },
  {
   "property": "C122",
   "status": "proved",
   "theorems": [
    "Verif.C122_dm",
    "Verif.C122_lais"
   ],
   "note": "positive proposal densities; completed and failed iterations, calls that return, raise or are still running"
  },
  {
   "property": "C123",
   "status": "partial",
   "theorems": [
    "Verif.C123_partial_number",
    "Verif.C123_partial_dm",
    "Verif.C123_partial_lais",
    "Verif.C123_partial_mpmc",
    "Verif.C123_partial_hidaisee",
    "Verif.C123_partial_rejection",
    "Verif.C123_partial_nested",
    "Verif.C123_partial_multi",
    "Verif.C123_partial_tree",
    "Verif.C123_partial_tree_mixture",
    "Verif.MHast.C123_partial_mh",
    "Verif.MHast.C123_refuted"
   ],
   "note": "holds for DM-AIS, layered AIS (exactly K/(K+L)), M-PMC and HiDaisee (exactly 1), rejection, nested, multi-nested and tree pyramid sampling; false for Metropolis-Hastings with n_steps = 0, true there with n_steps >= 1 when the first step of a sample starts before the timeout. Not covered: M-PMC, HiDaisee and tree pyramid objects after a call that raised, and the points added by a direct call of sample(), which only lower the rate"
  },
  {
   "property": "C124",
   "status": "partial",
   "theorems": [
    "Verif.C124_partial_uniform",
    "Verif.C124_partial_exponential",
    "Verif.C124_partial_laplace",
    "Verif.C124_partial_maxwell",
    "Verif.C124_partial_pareto",
    "Verif.C124_partial_normal",
    "Verif.C124_partial_banana",
    "Verif.C124_refuted"
   ],
   "note": "exact masses for uniform, unit exponential, Laplace, Maxwell and Pareto, at least 1 - 2 d exp(-18) for every freshly built normal, more than half for the banana; false for exponential distributions from dimension 38 on or of mean e and above, and for normal distributions after set_moments or when the parameter dictionary is reused"
  },
  {
   "property": "C125",
   "status": "proved",
   "theorems": [
    "Verif.Rejection.C125_accept",
    "Verif.Rejection.C125_samples",
    "Verif.Rejection.C125_iff"
   ],
   "note": "law of one proposed point, joint law of all samples of a call, and the exact condition under which it is the law of the target"
  },
  {
   "property": "C126",
   "status": "partial",
   "theorems": [
    "Verif.SearchSpace.C126_partial",
    "Verif.SearchSpace.C126_partial_integers",
    "Verif.SearchSpace.C126_refuted"
   ],
   "note": "up to 1000 dimensions every coordinate is within 5e-9*max(1,|x|) of the reported one, exact for at most 8 fractional digits in positional notation and for integers of magnitude up to 1000; false for 1/3, for two corners less than 1e-8 apart (they can become equal), and above 1000 dimensions. The numpy printing rules are modelled as known, numpy is not part of the repository"
  },
  {
   "property": "C127",
   "status": "partial",
   "theorems": [
    "Verif.Bench.C127_partial",
    "Verif.Bench.C127_refuted"
   ],
   "note": "holds for all methods that read the world only through the random generator, also with the time and memory metrics switched on; false when a call is ended by its time limit: rejection sampling then writes other rows on a slower machine. Targets are given as values: building them is not modelled"
  },
  {
   "property": "C128",
   "status": "partial",
   "theorems": [
    "Verif.Plot.C128_partial",
    "Verif.Plot.C128_partial_rows",
    "Verif.Plot.C128_refuted"
   ],
   "note": "the curve has one point per sample count, does not depend on row order and foreign rows, and its heights lie between the bounds of the averages so far (so a falling metric is never drawn too low); false in general: the heights are means over the last ten sample counts, the first nine points are missing, and files with fewer than ten sample counts give no curve"
  },
  {
   "property": "C129",
   "status": "partial",
   "theorems": [
    "Verif.Plot.C129_partial",
    "Verif.Plot.C129_refuted"
   ],
   "note": "the band is the square root of the standard deviation of the averages of ten sample counts: right only when both are 0; it does not depend on the spread of the repetitions at all"
  },
  {
   "property": "C130",
   "status": "partial",
   "theorems": [
    "Verif.C130_partial_random",
    "Verif.C130_partial_egg_box",
    "Verif.C130_refuted_default",
    "Verif.C130_refuted"
   ],
   "note": "the support holds at least 1 - 2 sum exp(-25 v/2) of the mass, so most of it for variances of about 1; false for the default variances (five variances of 0.04 are one standard deviation): with one component in three dimensions less than half of the mass is inside for every outcome"
  },
  {
   "property": "C131",
   "status": "partial",
   "theorems": [
    "Verif.MHast.C131_limit",
    "Verif.MHast.C131_partial",
    "Verif.MHast.C131_refuted"
   ],
   "note": "for bounded targets inside the search space and proposal densities bounded below on the moves considered, the averages converge almost surely to the mean under target times acceptance probability, which is the target when the acceptance probability is constant on it; false in general: an example in which two fifths instead of a third of the samples fall in an interval; runs not interrupted by the clock"
  },
  {
   "property": "C132",
   "status": "proved",
   "theorems": [
    "Verif.Rejection.C132_limit",
    "Verif.Rejection.C132_consistent"
   ],
   "note": "limit for every scaling constant; the target when the scaled proposal dominates it"
  },
  {
   "property": "C133",
   "status": "partial",
   "theorems": [
    "Verif.Rejection.C133_refuted",
    "Verif.Rejection.C133_partial"
   ],
   "note": "the rate counts n proposals in every iteration although only the missing ones are drawn, so it is one over the number of iterations and tends to 0 unless every proposal is accepted"
  },
  {
   "property": "C134",
   "status": "partial",
   "theorems": [
    "Verif.Nested.C134_refuted",
    "Verif.Nested.C134_partial",
    "Verif.MultiNested.C134_refuted_multi",
    "Verif.MultiNested.C134_partial_multi"
   ],
   "note": "the first sample keeps at least the share m / (m + M) whatever the number of live points and samples; every other sample's share is at most M / m over the number of live points"
  },
  {
   "property": "C135",
   "status": "proved",
   "theorems": [
    "Verif.Nested.C135_nested",
    "Verif.Nested.C135_limit",
    "Verif.MultiNested.C135_multi"
   ],
   "note": "bound for both samplers, limit along sequences of calls"
  },
  {
   "property": "C136",
   "status": "proved",
   "theorems": [
    "Verif.Bench.C136_read_back"
   ],
   "note": "for the configurations for which C63 holds"
  },
  {
   "property": "C137",
   "status": "partial",
   "theorems": [
    "Verif.KDE.C137_refuted",
    "Verif.KDE.C137_partial"
   ],
   "note": "refuted for all four samplers: the number and the width of the kernels are fixed, so a wide target stays at distance 1 for every number of samples; what holds for rejection sampling is convergence, on average over the choice of kernels, to the target smoothed with the kernel"
  },
  {
   "property": "C138",
   "status": "partial",
   "theorems": [
    "Verif.HiD.C138_refuted",
    "Verif.HiD.C138_partial"
   ],
   "note": "refuted: for a target with levels 1 and 3 on the halves of an interval and target ESS above 0.8 (every sigma, every n_min) the averages almost surely do not tend to the right value although all calls return; what holds is convergence for targets that vary so little that the box is never cut"
  },
  {
   "property": "C139",
   "status": "partial",
   "theorems": [
    "Verif.TPSampler.C139_refuted",
    "Verif.TPSampler.C139_partial",
    "Verif.TPSampler.C139_mixture_partial",
    "Verif.Rejection.C139_partial",
    "Verif.MHast.C139_partial",
    "Verif.Nested.C139_partial",
    "Verif.MultiNested.C139_partial",
    "Verif.DM.C139_partial",
    "Verif.LAIS.C139_partial",
    "Verif.PMC.C139_partial",
    "Verif.HiD.C139_partial"
   ],
   "note": "refuted: the first call of a tree pyramid sampler (scheme simple) weighs the sample of the root without counting it; proved for the later calls, for the first call up to that one evaluation, and in full for the mixture schemes and all other samplers (for the tree samplers: calls that do not raise)"
  },
  {
   "property": "C140",
   "status": "partial",
   "theorems": [
    "Verif.TPSampler.C140_refuted",
    "Verif.TPSampler.C140_partial",
    "Verif.TPSampler.C140_ness_partial"
   ],
   "note": "refuted: the reported NESS is infinite in every state, because it is computed from attributes that are never filled; the number of samples is right, and get_NESS is the effective share (positive target, leaf resampling or first call)"
  },
  {
   "property": "C141",
   "status": "proved",
   "theorems": [
    "Verif.Bench.Bm.C141_reuse"
   ],
   "note": "time limit attribute fixed, since no file sets it; plots given by target, metric and the methods shown"
  },
  {
   "property": "C142",
   "status": "partial",
   "theorems": [
    "Verif.Bench.Bm.C142_refuted",
    "Verif.Bench.Bm.C142_partial",
    "Verif.Bench.Bm.C142_config"
   ],
   "note": "refuted: with the three documented arguments the script runs its default files, and the documented files raise KeyError; with four arguments and the format of the shipped files the evaluations are those of the file"
  },
  {
   "property": "C143",
   "status": "partial",
   "theorems": [
    "Verif.Bench.Bm.C143_refuted",
    "Verif.Bench.Bm.C143_partial"
   ],
   "note": "refuted: two targets with the same name and dimensions share a file and their rows are mixed; with different names or dimensions, different method names and metrics without underscore the claim holds"
  },
  {
   "property": "C144",
   "status": "partial",
   "theorems": [
    "Verif.Bench.Bm.C144_refuted",
    "Verif.Bench.Bm.C144_partial"
   ],
   "note": "refuted: the plotting script reads results.txt of the working directory, which is not the file the benchmark script writes; make_plots with the result file given makes the same plots (constructors of the methods that do not raise)"
  },
  {
   "property": "C145",
   "status": "partial",
   "theorems": [
    "Verif.ToDict.C145_refuted",
    "Verif.ToDict.C145_partial",
    "Verif.ToDict.C145_load",
    "Verif.ToDict.C145_names"
   ],
   "note": "refuted: the type written by to_dict does not name a class the benchmark can find, and to_dict raises for mixtures that were themselves loaded from a file; with the class name as type the loaded mixture is the same"
  },
  {
   "property": "C146",
   "status": "partial",
   "theorems": [
    "Verif.Wait.C146_refuted",
    "Verif.Wait.C146_partial",
    "Verif.Wait.C146_ready_partial"
   ],
   "note": "refuted: with a timeout that is not positive a ready distribution raises, and the noisy function returns None; otherwise as claimed"
  },
  {
   "property": "C147",
   "status": "partial",
   "theorems": [
    "Verif.Contour.C147_refuted",
    "Verif.Contour.C147_partial"
   ],
   "note": "refuted: the benchmark draws the exponential of the density; the helpers in plot_utils draw the density"
  },
  {
   "property": "C148",
   "status": "partial",
   "theorems": [
    "Verif.Rejection.C148_refuted",
    "Verif.Rejection.C148_partial"
   ],
   "note": "refuted: fails for the shipped normal target, for every density that is not uniform, and for search spaces not centred at the origin; the samples follow the target exactly if it is uniform on a part of the box of the proposals"
  },
  {
   "property": "C149",
   "status": "partial",
   "theorems": [
    "Verif.Nonparam.C149_refuted",
    "Verif.Nonparam.C149_partial"
   ],
   "note": "refuted: both constructors raise for all parameters; the partial theorem says which exception each dictionary gives"
  },
  {
   "property": "C150",
   "status": "partial",
   "theorems": [
    "Verif.PMC.C150_refuted",
    "Verif.PMC.C150_partial"
   ],
   "note": "refuted: the covariance update is not the weighted scatter, and one adaptation can make the weighted likelihood smaller; the update of the weights and means alone never lowers it, for every reachable state without NaN weights"
  },
  {
   "property": "C151",
   "status": "partial",
   "theorems": [
    "Verif.C151_dm",
    "Verif.C151_lais",
    "Verif.C151_mpmc",
    "Verif.C151_mh",
    "Verif.C151_nested",
    "Verif.C151_multinested",
    "Verif.HiD.C151_hidaisee_partial",
    "Verif.HiD.C151_refuted",
    "Verif.C151_tp_partial",
    "Verif.C151_tp_refuted_weights",
    "Verif.C151_tp_refuted_resampling"
   ],
   "note": "proved for whole sessions of DM-AIS, layered AIS, M-PMC, Metropolis-Hastings, nested and multi-nested sampling; refuted for HiDaisee with any positive exploration constant, where the result is the same only if that constant is scaled with the target; for the tree pyramid (method simple, haar kernel) proved for the samples, boxes, counters and exceptions without leaf resampling, and for the weights with an effective sample size target up to 1, refuted for the weights of a second call with a larger target and for the samples with leaf resampling"
  },
  {
   "property": "C152",
   "status": "proved",
   "theorems": [
    "Verif.C152_mh",
    "Verif.C152_nested",
    "Verif.C152_multiNested",
    "Verif.C152_dm",
    "Verif.C152_lais",
    "Verif.C152_hidaisee"
   ],
   "note": "one theorem per sampler, for whole sessions; M-PMC and the tree pyramid are not part of the claim"
  },
  {
   "property": "C153",
   "status": "partial",
   "theorems": [
    "Verif.C153_partial",
    "Verif.C153_flat",
    "Verif.C153_columns",
    "Verif.C153_refuted"
   ],
   "note": "proved for matrices with ndims columns and, in one dimension, flat arrays; flat arrays in higher dimensions are taken apart number by number (C153_flat, for every tree) and matrices with one column, and in one dimension with any number of columns, are not refused (C153_refuted, C153_columns)"
  },
  {
   "property": "C154",
   "status": "partial",
   "theorems": [
    "Verif.C154_dm",
    "Verif.C154_lais",
    "Verif.C154_mpmc",
    "Verif.MHast.C154_mh",
    "Verif.HiD.C154_hidaisee",
    "Verif.Rejection.C154_rejection_partial",
    "Verif.Rejection.C154_rejection_refuted",
    "Verif.C154_tp_partial",
    "Verif.C154_tp_refuted"
   ],
   "note": "proved completely for DM-AIS, layered AIS, M-PMC, Metropolis-Hastings and HiDaisee; for rejection sampling proved for samples, weights and density estimate, refuted for the counters; for the tree pyramid (method simple, haar kernel, no leaf resampling) proved for samples, boxes, counters and exceptions, and for the weights with an effective sample size target up to 1, refuted for the weights with a larger target"
  },
  {
   "property": "C155",
   "status": "partial",
   "theorems": [
    "Verif.Viz.C155_partial",
    "Verif.Viz.C155_refuted_point",
    "Verif.Viz.C155_refuted_axis"
   ],
   "note": "proved for all sequences in which only functions are replaced; replacing a point raises TypeError, replacing an axis leaves all but its last tick line on the plot, or raises when it has no ticks"
  },
  {
   "property": "C156",
   "status": "partial",
   "theorems": [
    "Verif.Bench.Bm.C156_partial",
    "Verif.Bench.Bm.C156_refuted"
   ],
   "note": "proved for the configuration and the benchmark file (missing, no targets, first target that cannot be constructed); a missing methods file is noticed only after the result file was overwritten by a header"
  },
  {
   "property": "C157",
   "status": "proved",
   "theorems": [
    "Verif.C157_rejection",
    "Verif.C157_mh",
    "Verif.C157_dm",
    "Verif.C157_lais",
    "Verif.C157_hidaisee",
    "Verif.C157_proposal",
    "Verif.C157_dm_normal",
    "Verif.C157_lais_normal",
    "Verif.C157_one_width"
   ],
   "note": "from new samplers, for any sequence of calls; the draws and moves of the proposals are converted by hypothesis, as their densities are. C157_proposal shows the hypothesis on the proposals of DM-AIS and layered AIS for the normal distributions of the code with variance t^2*sigma, C157_one_width why only a common factor is claimed for them. Of the density reported by rejection sampling and Metropolis-Hastings the centres are compared (the width kde_bw is a parameter)"
  },
  {
   "property": "C158",
   "status": "proved",
   "theorems": [
    "Verif.C158_rejection",
    "Verif.C158_mh",
    "Verif.C158_nested",
    "Verif.C158_multiNested",
    "Verif.C158_dm",
    "Verif.C158_lais",
    "Verif.C158_hidaisee",
    "Verif.C158_proposal"
   ],
   "note": "from new samplers, for any sequence of calls; draws, moves, the labels of the clustering of multi-nested sampling and the axes drawn for splits correspond by hypothesis. C158_proposal shows the hypothesis on the proposals of DM-AIS and layered AIS for the normal distributions of the code"
  }
 ]
}