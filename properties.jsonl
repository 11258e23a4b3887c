{"id": "C01", "title": "count is the number of samples pushed", "statement": "After pushing any sequence of samples into a set holding count, count(acc) equals the number of pushes made so far (modulo 2^w for a w-bit size_t), independently of the sample values and of how often results were extracted in between.", "quantifier": "all finite sample sequences, all interleavings of pushes and extractions, every word width", "why_tests_cant": "A test fixes one sequence length; the claim is about every history.", "anchors": ["include/boost/accumulators/statistics/count.hpp: impl::count_impl", "include/boost/accumulators/framework/accumulator_set.hpp: accumulator_set::operator()"]}
{"id": "C02", "title": "sum is the exact sum of the samples (plus the optional initial value)", "statement": "sum(acc) equals the initial `sample` value passed to the constructor (zero by default) plus the sum of all samples pushed; sum_of_weights and sum_of_variates likewise for weights and variates.", "quantifier": "all finite sequences of samples (any commutative additive type in exact arithmetic) and all initial values", "why_tests_cant": "Needs induction over the stream; tests cover single streams.", "anchors": ["include/boost/accumulators/statistics/sum.hpp: impl::sum_impl, tag::sum, tag::sum_of_weights, tag::sum_of_variates"]}
{"id": "C03", "title": "Kahan sum agrees with the plain sum when arithmetic does not round", "statement": "In exact arithmetic the compensation term is always zero and sum_kahan / sum_of_weights_kahan / weighted_sum_kahan return the same value as the corresponding plain sum after every prefix of the stream.", "quantifier": "all finite sequences of samples and weights over any ring", "why_tests_cant": "Tests compare one stream up to a tolerance.", "anchors": ["include/boost/accumulators/statistics/sum_kahan.hpp: impl::sum_kahan_impl", "include/boost/accumulators/statistics/weighted_sum_kahan.hpp: impl::weighted_sum_kahan_impl"]}
{"id": "C04", "title": "mean: lazy and immediate variants agree and equal the arithmetic mean", "statement": "For every non-empty stream, mean(acc) (computed as sum/count) and immediate_mean (updated recursively) both equal (x1+...+xn)/n; for the empty stream the result is not a number (division by zero), never a finite value.", "quantifier": "all finite sample sequences over any ordered field", "why_tests_cant": "Equality of two different algorithms on all streams; recursion needs induction.", "anchors": ["include/boost/accumulators/statistics/mean.hpp: impl::mean_impl, impl::immediate_mean_impl"]}
{"id": "C05", "title": "moment<N> is the N-th raw moment", "statement": "moment<N>(acc) equals (x1^N+...+xn^N)/n for every N>0 and every non-empty stream; the library's repeated-squaring power agrees with the mathematical power.", "quantifier": "all N, all finite sample sequences", "why_tests_cant": "N and the stream are unbounded.", "anchors": ["include/boost/accumulators/statistics/moment.hpp: numeric::pow, impl::moment_impl"]}
{"id": "C06", "title": "variance: lazy and immediate variants agree and equal the population variance", "statement": "For every non-empty stream, lazy_variance (second moment minus squared mean) and variance (recursive update) both equal (1/n) * sum (xi - mean)^2; in particular the result is never negative, is zero exactly when all samples are equal, is unchanged by shifting all samples and scales with the square of a common factor.", "quantifier": "all finite sample sequences over any ordered field", "why_tests_cant": "Two different algorithms on all streams.", "anchors": ["include/boost/accumulators/statistics/variance.hpp: impl::lazy_variance_impl, impl::variance_impl"]}
{"id": "C07", "title": "skewness and kurtosis are the standardized central moments", "statement": "For every stream with non-zero variance, skewness(acc) equals m3/m2^(3/2) and kurtosis(acc) equals m4/m2^2-3 with mk the k-th central moment of the samples; both are invariant under shifting and positive scaling, skewness is odd under negation, and the two satisfy kurtosis >= skewness^2 - 2.", "quantifier": "all finite real sample sequences with non-zero variance", "why_tests_cant": "Formula in terms of raw moments; identity must hold for every stream.", "anchors": ["include/boost/accumulators/statistics/skewness.hpp: impl::skewness_impl", "include/boost/accumulators/statistics/kurtosis.hpp: impl::kurtosis_impl"]}
{"id": "C08", "title": "covariance of sample and covariate", "statement": "For every non-empty stream of (sample, covariate) pairs, covariance(acc) equals (1/n) * sum (xi - mean x)(yi - mean y); it is symmetric in the two roles and equals the variance if covariate = sample; for a vector covariate the result is the corresponding vector (matrix) of componentwise covariances.", "quantifier": "all finite sequences of pairs", "why_tests_cant": "Recursive update, needs induction over the stream.", "anchors": ["include/boost/accumulators/statistics/covariance.hpp: impl::covariance_impl, numeric::outer_product"]}
{"id": "C09", "title": "min and max are the exact extremes", "statement": "For every non-empty stream of values of a totally ordered numeric type whose limits bound all values, min(acc) and max(acc) are elements of the stream and bound every sample; with no samples they return the type limits; a sample that compares unordered (NaN) never changes the result.", "quantifier": "all finite sample sequences, all element types with a correct numeric_limits", "why_tests_cant": "All streams and all orders of arrival.", "anchors": ["include/boost/accumulators/statistics/max.hpp: impl::max_impl", "include/boost/accumulators/statistics/min.hpp: impl::min_impl", "include/boost/accumulators/numeric/functional.hpp: as_min, as_max, min_assign, max_assign"]}
{"id": "C10", "title": "order of arrival does not matter for symmetric statistics", "statement": "For count, sum, mean (both variants), moment<N>, variance (both variants), skewness, kurtosis, covariance, min, max, the tail and everything computed from it, the peaks-over-threshold fit extracted once, density (once the cache phase sees the same samples), any permutation of the stream yields the same result. The same holds for weighted sum, mean, moments, variance, skewness, kurtosis, covariance, density, tail quantile and threshold fit under permutations of the (sample, weight) pairs, for the incremental ones as long as no partial sum of weights vanishes. Weighted tail means depend on the order of equal samples.", "quantifier": "all sample sequences and all their permutations", "why_tests_cant": "n! schedules of arrival for each multiset.", "anchors": ["include/boost/accumulators/statistics/count.hpp", "include/boost/accumulators/statistics/sum.hpp", "include/boost/accumulators/statistics/mean.hpp", "include/boost/accumulators/statistics/moment.hpp", "include/boost/accumulators/statistics/variance.hpp", "include/boost/accumulators/statistics/covariance.hpp", "include/boost/accumulators/statistics/min.hpp", "include/boost/accumulators/statistics/max.hpp", "include/boost/accumulators/statistics/tail.hpp", "include/boost/accumulators/statistics/weighted_mean.hpp", "include/boost/accumulators/statistics/weighted_variance.hpp", "include/boost/accumulators/statistics/weighted_density.hpp"]}
{"id": "C11", "title": "error_of<mean>", "statement": "error_of<tag::mean>(acc) squared equals variance/(n-1) for n >= 2, for both the lazy and the immediate mean; for n < 2 the result is not a finite number.", "quantifier": "all finite real sample sequences", "why_tests_cant": "All streams.", "anchors": ["include/boost/accumulators/statistics/error_of_mean.hpp: impl::error_of_mean_impl", "include/boost/accumulators/statistics/error_of.hpp: tag::error_of"]}
{"id": "C12", "title": "rolling window holds exactly the last N samples", "statement": "After any stream, rolling_window(acc) is, in arrival order, the last min(n,N) samples pushed, and rolling_count(acc) is min(n,N), for every window size N.", "quantifier": "all window sizes, all sample sequences (including the transition from not-full to full)", "why_tests_cant": "Off-by-one at the boundary for each N and n.", "anchors": ["include/boost/accumulators/statistics/rolling_window.hpp: impl::rolling_window_plus1_impl, impl::rolling_window_impl, is_rolling_window_plus1_full", "include/boost/accumulators/statistics/rolling_count.hpp: impl::rolling_count_impl"]}
{"id": "C13", "title": "rolling sum, mean and moment are those of the last N samples", "statement": "For every window size N >= 1 and every stream, rolling_sum, rolling_mean (lazy and immediate) and rolling_moment<M> equal the sum, mean and M-th raw moment of the last min(n,N) samples.", "quantifier": "all window sizes, all sample sequences, all moment orders", "why_tests_cant": "Incremental updates must be exact at every step of every stream.", "anchors": ["include/boost/accumulators/statistics/rolling_sum.hpp: impl::rolling_sum_impl", "include/boost/accumulators/statistics/rolling_mean.hpp: impl::lazy_rolling_mean_impl, impl::immediate_rolling_mean_impl", "include/boost/accumulators/statistics/rolling_moment.hpp: impl::rolling_moment_impl"]}
{"id": "C14", "title": "rolling variance is the unbiased sample variance of the last N samples", "statement": "For every window size N >= 1 and every stream, lazy_rolling_variance and immediate_rolling_variance both return 0 when the window holds fewer than two samples and otherwise sum (xi-mean)^2/(k-1) over the k samples of the window; the clamp against negative values never changes the exact result.", "quantifier": "all window sizes and sample sequences", "why_tests_cant": "Recursive Welford-style update with removal must be exact for all streams.", "anchors": ["include/boost/accumulators/statistics/rolling_variance.hpp: impl::lazy_rolling_variance_impl, impl::immediate_rolling_variance_impl"]}
{"id": "C15", "title": "tail holds the k most extreme samples in order", "statement": "For every cache size k >= 1 and every stream, tail(acc) is the list of the min(n,k) largest (right) / smallest (left) samples, ordered from most extreme to least extreme, for every standard-conforming heap implementation.", "quantifier": "all cache sizes, all streams, both sides, every conforming std::push_heap/pop_heap/sort_heap", "why_tests_cant": "The heap layout differs by library and by arrival order.", "anchors": ["include/boost/accumulators/statistics/tail.hpp: impl::tail_impl"]}
{"id": "C16", "title": "asking for the tail never disturbs later results", "statement": "Extracting tail(acc) (which sorts the internal heap lazily) any number of times at any points of the stream does not change what any later extraction returns.", "quantifier": "all interleavings of pushes and tail queries", "why_tests_cant": "Schedules of queries are unbounded; sorting destroys and must not break the heap.", "anchors": ["include/boost/accumulators/statistics/tail.hpp: tail_impl::result, tail_impl::assign"]}
{"id": "C17", "title": "tail variates stay attached to their samples", "statement": "tail_variate(acc) and tail_weights(acc) list, position by position, the variate / weight that was pushed together with the sample at the same position of tail(acc).", "quantifier": "all streams of (sample, variate) pairs, all cache sizes, all query interleavings", "why_tests_cant": "Alignment through arbitrary heap permutations and slot reuse.", "anchors": ["include/boost/accumulators/statistics/tail_variate.hpp: impl::tail_variate_impl", "include/boost/accumulators/statistics/tail.hpp: tail_impl::assign, detail::tail_range"]}
{"id": "C18", "title": "tail_quantile is an order statistic of the whole stream", "statement": "If n = ceil(count*p) (left; count*(1-p) right) satisfies 1 <= n and n is smaller than the number of cached samples, quantile(acc, quantile_probability=p) is the n-th most extreme sample of the entire stream, hence at least n samples are at least as extreme and at most n-1 are strictly more extreme; otherwise a NaN is returned or an exception thrown.", "quantifier": "all streams, cache sizes, probabilities, both sides", "why_tests_cant": "All streams and all real p.", "anchors": ["include/boost/accumulators/statistics/tail_quantile.hpp: impl::tail_quantile_impl"]}
{"id": "C19", "title": "non-coherent tail mean is the mean of the n most extreme samples", "statement": "Whenever n = ceil(count*p) (left; count*(1-p) right) is between 1 and the number of cached samples, non_coherent_tail_mean returns the arithmetic mean of the n most extreme samples of the entire stream, which is at least as extreme as the corresponding tail_quantile.", "quantifier": "all streams, cache sizes, probabilities, both sides", "why_tests_cant": "All streams and all real p.", "anchors": ["include/boost/accumulators/statistics/tail_mean.hpp: impl::non_coherent_tail_mean_impl"]}
{"id": "C20", "title": "coherent tail mean corrects the non-coherent one for the fractional sample", "statement": "coherent_tail_mean returns, as documented, NCTM + (1/n) * q * (a - n/count), where a = p for the left tail and a = 1-p for the right tail, n = ceil(count*a), q is the tail quantile and NCTM the non-coherent tail mean; in particular it equals NCTM whenever count*a is an integer.", "quantifier": "all streams, cache sizes, probabilities, both sides", "why_tests_cant": "All streams and p.", "anchors": ["include/boost/accumulators/statistics/tail_mean.hpp: impl::coherent_tail_mean_impl"]}
{"id": "C21", "title": "tail variate means average the variates of the n most extreme samples", "statement": "absolute_tail_variate_means returns the componentwise mean of the variates belonging to the n most extreme samples; relative_tail_variate_means divides each by the non-coherent tail mean of the samples; too few cached samples give NaN or an exception; if one of the n most extreme samples has fewer variates than the most extreme one, the extraction is undefined.", "quantifier": "all streams of (sample, vector variate) pairs, cache sizes, probabilities, sides", "why_tests_cant": "All streams; alignment and n computed from real p.", "anchors": ["include/boost/accumulators/statistics/tail_variate_means.hpp: impl::tail_variate_means_impl"]}
{"id": "C22", "title": "P-square quantile markers stay ordered and the estimate stays within the data", "statement": "For every stream of at least five samples and every probability 0<p<1, p_square_quantile keeps its five heights in non-decreasing order and its five marker positions strictly increasing integers with first 1 and last n, no division by zero ever happens, the outer heights are the exact minimum and maximum, and the returned estimate lies between min and max of the samples.", "quantifier": "all streams, all p", "why_tests_cant": "Adaptive algorithm with data-dependent branching; an invariant over all executions.", "anchors": ["include/boost/accumulators/statistics/p_square_quantile.hpp: impl::p_square_quantile_impl"]}
{"id": "C23", "title": "P-square cumulative distribution is a monotone distribution function", "statement": "Once more samples than cells have been seen, p_square_cumulative_distribution(acc) returns points whose heights are non-decreasing from min to max and whose cumulative values are strictly increasing and end at exactly 1.", "quantifier": "all streams, all cell counts >= 1", "why_tests_cant": "Invariant of an adaptive algorithm.", "anchors": ["include/boost/accumulators/statistics/p_square_cumul_dist.hpp: impl::p_square_cumulative_distribution_impl"]}
{"id": "C24", "title": "extended P-square quantile estimates are ordered and within the data", "statement": "For every non-empty increasing probability vector and every stream longer than the number of markers, extended_p_square(acc) returns non-decreasing values all lying between min and max; no division by zero and no out-of-range access happens.", "quantifier": "all streams, all increasing probability vectors", "why_tests_cant": "Invariant of an adaptive algorithm with vector-length-dependent indexing.", "anchors": ["include/boost/accumulators/statistics/extended_p_square.hpp: impl::extended_p_square_impl"]}
{"id": "C25", "title": "interpolated extended P-square quantile", "statement": "For a requested probability inside [first,last] of the probability vector, extended_p_square_quantile (linear) returns the stored estimate exactly when the probability is one of the vector's entries and otherwise a value between the two neighbouring estimates; a probability outside the range returns NaN or throws; the quadratic variant interpolates three neighbouring estimates exactly (agrees with each of them at its own probability).", "quantifier": "all marker states, all probability vectors and requested probabilities", "why_tests_cant": "All reals p, all states; boundary indexing.", "anchors": ["include/boost/accumulators/statistics/extended_p_square_quantile.hpp: impl::extended_p_square_quantile_impl"]}
{"id": "C26", "title": "density is a partition of the samples", "statement": "Once the cache is full, density(acc) assigns every sample pushed so far to exactly one bin, the bin whose half-open interval contains it (outer bins take under/overflow), each reported fraction is (#samples in bin)/count, fractions are non-negative and sum to exactly 1, and bin positions are equally spaced over [min,max] of the cached samples.", "quantifier": "all streams, cache sizes and bin counts with a non-degenerate cached range", "why_tests_cant": "Every real sample and boundary.", "anchors": ["include/boost/accumulators/statistics/density.hpp: impl::density_impl"]}
{"id": "C27", "title": "weighted density is a partition of the weight", "statement": "Once the cache is full, weighted_density(acc) reports for each bin the sum of the weights of the samples falling into it divided by the sum of weights; the fractions sum to exactly 1 whenever the total weight is non-zero.", "quantifier": "all streams of (sample, weight), cache sizes and bin counts", "why_tests_cant": "Every stream.", "anchors": ["include/boost/accumulators/statistics/weighted_density.hpp: impl::weighted_density_impl"]}
{"id": "C28", "title": "extraction is transparent", "statement": "Extracting any result from an accumulator set, any number of times and at any points, never changes the value of any later extraction (a result is a function of the samples pushed so far only).", "quantifier": "all statistics with cached or lazily computed results, all interleavings of pushes and extractions", "why_tests_cant": "Schedules of extractions are unbounded.", "anchors": ["include/boost/accumulators/statistics/density.hpp: is_dirty", "include/boost/accumulators/statistics/median.hpp", "include/boost/accumulators/statistics/tail.hpp: is_sorted", "include/boost/accumulators/statistics/peaks_over_threshold.hpp", "include/boost/accumulators/statistics/p_square_cumul_dist.hpp", "include/boost/accumulators/statistics/extended_p_square_quantile.hpp"]}
{"id": "C29", "title": "median estimates lie within the data and at the half-mass point", "statement": "median(acc) returns the P-square 0.5-quantile estimate; with_density_median and with_p_square_cumulative_distribution_median return the point where the (piecewise linear) estimated distribution function reaches 1/2, between the two neighbouring positions that bracket 1/2.", "quantifier": "all density / cumulative distribution states", "why_tests_cant": "All streams.", "anchors": ["include/boost/accumulators/statistics/median.hpp: impl::median_impl, impl::with_density_median_impl, impl::with_p_square_cumulative_distribution_median_impl"]}
{"id": "C30", "title": "peaks over threshold fits mean and variance of the exceedances", "statement": "After any stream, peaks_over_threshold(acc) returns (u_bar, beta_bar, xi_hat) computed by the method of moments from the mean and variance of exactly those samples strictly beyond the threshold and the fraction beyond it, as a function of the samples only.", "quantifier": "all streams, thresholds, sides, all interleavings with extraction", "why_tests_cant": "All streams and query schedules.", "anchors": ["include/boost/accumulators/statistics/peaks_over_threshold.hpp: impl::peaks_over_threshold_impl, impl::peaks_over_threshold_prob_impl"]}
{"id": "C31", "title": "POT quantile inverts the fitted tail distribution", "statement": "For the fitted parameters, pot_quantile at probability p is the point where the fitted generalized Pareto tail has exceedance probability 1-p (right; p for left), it is monotone in p, and pot_tail_mean is the mean of the fitted tail beyond that quantile (xi<1).", "quantifier": "all parameter triples with beta>0 and xi != 0, all p in (0,1)", "why_tests_cant": "Real-analytic identity for all parameters.", "anchors": ["include/boost/accumulators/statistics/pot_quantile.hpp: impl::pot_quantile_impl", "include/boost/accumulators/statistics/pot_tail_mean.hpp: impl::pot_tail_mean_impl"]}
{"id": "C32", "title": "weighted mean: lazy and immediate agree", "statement": "For every stream of (sample, weight) pairs whose partial weight sums are non-zero, weighted_mean and immediate_weighted_mean both equal (sum wi xi)/(sum wi), for samples and for variates.", "quantifier": "all streams with non-zero partial weight sums", "why_tests_cant": "Two algorithms on all streams.", "anchors": ["include/boost/accumulators/statistics/weighted_mean.hpp: impl::weighted_mean_impl, impl::immediate_weighted_mean_impl", "include/boost/accumulators/statistics/weighted_sum.hpp: impl::weighted_sum_impl"]}
{"id": "C33", "title": "weighted variance: lazy and immediate agree", "statement": "For every stream with non-zero partial weight sums, lazy_weighted_variance and weighted_variance both equal (1/W) sum wi (xi - mean)^2; with positive weights the result is never negative.", "quantifier": "all streams with suitable weights", "why_tests_cant": "Two algorithms on all streams.", "anchors": ["include/boost/accumulators/statistics/weighted_variance.hpp: impl::lazy_weighted_variance_impl, impl::weighted_variance_impl"]}
{"id": "C34", "title": "weighted moments, skewness, kurtosis and covariance", "statement": "weighted_moment<N> equals (1/W) sum wi xi^N; weighted_skewness, weighted_kurtosis and weighted_covariance equal the weighted central-moment expressions, for every stream with suitable weights.", "quantifier": "all streams, all N", "why_tests_cant": "All streams.", "anchors": ["include/boost/accumulators/statistics/weighted_moment.hpp: impl::weighted_moment_impl", "include/boost/accumulators/statistics/weighted_skewness.hpp: impl::weighted_skewness_impl", "include/boost/accumulators/statistics/weighted_kurtosis.hpp: impl::weighted_kurtosis_impl", "include/boost/accumulators/statistics/weighted_covariance.hpp: impl::weighted_covariance_impl"]}
{"id": "C35", "title": "unit weights reproduce the unweighted statistic", "statement": "Pushing every sample with weight 1 gives the same sum, mean, variance, moment, skewness, kurtosis, covariance, density and tail statistics as the unweighted feature.", "quantifier": "all streams", "why_tests_cant": "Agreement of two implementations on all streams.", "anchors": ["include/boost/accumulators/statistics/weighted_mean.hpp", "include/boost/accumulators/statistics/weighted_variance.hpp", "include/boost/accumulators/statistics/weighted_moment.hpp", "include/boost/accumulators/statistics/weighted_density.hpp", "include/boost/accumulators/statistics/weighted_tail_quantile.hpp", "include/boost/accumulators/statistics/weighted_p_square_quantile.hpp"]}
{"id": "C36", "title": "weights act as multiplicities and only their ratio matters", "statement": "A sample pushed with positive integer weight k contributes to weighted mean, variance, moment, skewness, kurtosis, covariance like k unweighted copies; multiplying all weights by a common positive factor changes none of them.", "quantifier": "all streams, all positive integer weights, all positive scale factors", "why_tests_cant": "Hyperproperty relating two executions.", "anchors": ["include/boost/accumulators/statistics/weighted_mean.hpp", "include/boost/accumulators/statistics/weighted_variance.hpp", "include/boost/accumulators/statistics/weighted_moment.hpp"]}
{"id": "C37", "title": "weighted tail quantile and tail mean", "statement": "weighted_tail_quantile returns the first sample, going from the most extreme inwards, at which the accumulated weight reaches W*p (left; W*(1-p) right); non_coherent_weighted_tail_mean is the weighted mean of the samples up to that point; if the cached weight is not enough a NaN or exception results.", "quantifier": "all streams, cache sizes, probabilities", "why_tests_cant": "Loop over data-dependent weights for all streams.", "anchors": ["include/boost/accumulators/statistics/weighted_tail_quantile.hpp: impl::weighted_tail_quantile_impl", "include/boost/accumulators/statistics/weighted_tail_mean.hpp: impl::non_coherent_weighted_tail_mean_impl"]}
{"id": "C38", "title": "weighted tail variate means terminate with the weighted means of the variates", "statement": "absolute/relative_weighted_tail_variate_means terminate for every stream and every probability, returning the weighted means of the variates of the most extreme samples, or NaN / an exception if the cached weight is insufficient.", "quantifier": "all streams, cache sizes, probabilities", "why_tests_cant": "Termination for all inputs.", "anchors": ["include/boost/accumulators/statistics/weighted_tail_variate_means.hpp: impl::weighted_tail_variate_means_impl"]}
{"id": "C39", "title": "weighted P-square quantile invariants", "statement": "For every stream with positive weights, weighted_p_square_quantile keeps heights non-decreasing with outer heights the minimum and maximum, keeps the last marker position equal to the sum of weights, and returns an estimate within [min,max].", "quantifier": "all streams with positive weights, all p in (0,1)", "why_tests_cant": "Invariant of an adaptive algorithm.", "anchors": ["include/boost/accumulators/statistics/weighted_p_square_quantile.hpp: impl::weighted_p_square_quantile_impl"]}
{"id": "C40", "title": "weighted P-square cumulative distribution ends at 1", "statement": "For every stream with positive weights and more samples than cells, weighted_p_square_cumulative_distribution returns non-decreasing heights from min to max with non-decreasing cumulative values ending at exactly 1.", "quantifier": "all streams with positive weights, all cell counts", "why_tests_cant": "Invariant over all executions.", "anchors": ["include/boost/accumulators/statistics/weighted_p_square_cumul_dist.hpp: impl::weighted_p_square_cumulative_distribution_impl"]}
{"id": "C41", "title": "weighted extended P-square estimates are ordered and within the data", "statement": "For every increasing probability vector and every stream with positive weights, weighted_extended_p_square returns non-decreasing values within [min,max].", "quantifier": "all streams with positive weights", "why_tests_cant": "Invariant over all executions.", "anchors": ["include/boost/accumulators/statistics/weighted_extended_p_square.hpp: impl::weighted_extended_p_square_impl"]}
{"id": "C42", "title": "dependency closure with exactly one accumulator per feature", "statement": "For every list of requested features the constructed set contains exactly one accumulator for every requested feature (of several requested variants of one feature: the first listed) and for every feature that an installed requested feature depends on directly or indirectly, and nothing else.", "quantifier": "all finite feature universes with acyclic dependencies and feature_of mappings, all request lists", "why_tests_cant": "Infinitely many feature combinations.", "anchors": ["include/boost/accumulators/framework/depends_on.hpp: detail::make_accumulator_tuple, insert_feature, insert_dependencies"]}
{"id": "C43", "title": "the user's variant wins over the default dependency", "statement": "If the user explicitly requests a variant of a feature (e.g. immediate_mean for mean), that variant and not the default one is installed, no matter where in the list it stands and who else depends on the feature; among several requested variants of one feature the first listed is installed.", "quantifier": "all request lists", "why_tests_cant": "Infinitely many feature combinations.", "anchors": ["include/boost/accumulators/framework/depends_on.hpp: detail::make_accumulator_tuple, insert_feature, feature_of"]}
{"id": "C44", "title": "accumulators are updated after everything they depend on", "statement": "Whenever a sample is pushed, every accumulator is updated after all accumulators of the set that provide a feature it (directly or indirectly) depends on, so that it never reads stale values of the previous sample.", "quantifier": "all request lists in any order, all feature variants", "why_tests_cant": "Infinitely many feature combinations; order is decided by a compile-time sort whose comparison is not a total order.", "anchors": ["include/boost/accumulators/framework/depends_on.hpp: is_dependent_on, make_accumulator_tuple", "include/boost/accumulators/framework/accumulator_set.hpp: visit, operator()"]}
{"id": "C45", "title": "results do not depend on what else is in the set", "statement": "Adding further features to a set, or listing the features in another order, does not change the result of any feature whose providers are the same.", "quantifier": "all sets, all streams", "why_tests_cant": "Hyperproperty over pairs of sets.", "anchors": ["include/boost/accumulators/framework/accumulator_set.hpp: operator()", "include/boost/accumulators/framework/depends_on.hpp: make_accumulator_tuple"]}
{"id": "C46", "title": "extraction finds the provider", "statement": "For every feature requested (or implied), extracting through any tag that maps to the same feature returns the result of the one accumulator of the set providing it; extraction of weighted or droppable variants through the plain extractor works.", "quantifier": "all sets, all tags", "why_tests_cant": "Infinitely many sets.", "anchors": ["include/boost/accumulators/framework/accumulator_set.hpp: extract, find_accumulator, extract_result", "include/boost/accumulators/framework/extractor.hpp: extractor", "include/boost/accumulators/framework/depends_on.hpp: matches_feature"]}
{"id": "C47", "title": "a dropped feature's accumulator is frozen", "statement": "Once a droppable accumulator is really dropped (its reference count reached zero) no later push changes its state, and it never comes back to life; until then it is updated by every push.", "quantifier": "all histories of pushes and drops", "why_tests_cant": "Histories are unbounded.", "anchors": ["include/boost/accumulators/framework/accumulators/droppable_accumulator.hpp: droppable_accumulator_base"]}
{"id": "C48", "title": "drop keeps what others still need", "statement": "Dropping a user-specified droppable feature never stops an accumulator that a not-yet-dropped user-specified feature depends on, and dropping all user-specified features that depend on an accumulator really drops it; reference counts never go negative.", "quantifier": "all feature sets, all sequences of legal drops", "why_tests_cant": "All dependency graphs and drop orders.", "anchors": ["include/boost/accumulators/framework/accumulators/droppable_accumulator.hpp: add_ref_visitor, drop_visitor, droppable_accumulator_base", "include/boost/accumulators/framework/accumulator_set.hpp: drop, accumulator_set ctor"]}
{"id": "C49", "title": "while an accumulator is constructed no other accumulator of the set can be accessed", "statement": "The documentation says that accumulators are constructed in the order of their dependencies and may access, in the constructor, those they depend on. In the code, for every feature list and every order in which a compiler may evaluate arguments, each accumulator is constructed exactly once, and while it is constructed no accumulator of the set is in place yet, in particular none it depends on; nor need the order of construction follow the dependencies.", "quantifier": "all feature lists, all evaluation orders permitted by C++", "why_tests_cant": "All feature combinations.", "anchors": ["include/boost/accumulators/framework/depends_on.hpp: build_acc_list, make_acc_list", "doc/accumulators.qbk"]}
{"id": "C50", "title": "cached result of a dropped accumulator", "statement": "An accumulator wrapped with with_cached_result and droppable keeps returning, forever after being really dropped, the value its result had at the moment of the drop, even if accumulators it reads go on changing.", "quantifier": "all histories", "why_tests_cant": "Unbounded histories.", "anchors": ["include/boost/accumulators/framework/accumulators/droppable_accumulator.hpp: with_cached_result"]}
{"id": "C51", "title": "external, reference and value accumulators", "statement": "An external feature returns the current result of that feature in the set passed by name (or held by reference), at any time, and pushing samples to the referring set does not change it; value<> returns the constructor argument forever.", "quantifier": "all histories of both sets", "why_tests_cant": "Unbounded histories of two objects.", "anchors": ["include/boost/accumulators/framework/accumulators/external_accumulator.hpp: external_impl", "include/boost/accumulators/framework/accumulators/reference_accumulator.hpp", "include/boost/accumulators/framework/accumulators/value_accumulator.hpp"]}
{"id": "C52", "title": "save and restore resume exactly", "statement": "Serializing a set at any point and loading it into a freshly constructed set with the same constructor arguments gives a set that behaves identically for all further pushes and extractions.", "quantifier": "all prefixes, all continuations, every serializable accumulator", "why_tests_cant": "The crash point and the continuation range over all histories.", "anchors": ["include/boost/accumulators/framework/accumulator_set.hpp: serialize", "include/boost/accumulators/statistics/count.hpp: serialize", "include/boost/accumulators/statistics/rolling_window.hpp: serialize", "include/boost/accumulators/statistics/tail.hpp: serialize", "include/boost/accumulators/statistics/weighted_peaks_over_threshold.hpp: serialize"]}
{"id": "C53", "title": "vector and valarray samples are treated componentwise", "statement": "In a set constructed with sample = v0, v0 a std::vector or a std::valarray of dimension d, and fed samples of the same kind and dimension d, the result of sum, mean (lazy and immediate, weighted and unweighted), variance (both algorithms), weighted variance, min, max, moment, weighted sum and weighted moment is the vector of the results obtained by running the scalar accumulator on each component; covariance with a scalar partner is the vector of the componentwise covariances. A sample of another dimension anywhere in the stream is undefined behaviour for sum, min, max and the lazy mean; for the immediate mean it is for valarrays and for shorter vectors, while longer vectors are truncated silently. In particular, without the initial vector the first sample violates an assertion of the vector operators (or, for the immediate mean of std::vector, the mean stays empty).", "quantifier": "both containers, all dimensions, all streams of vectors of that dimension; all streams containing a vector of another dimension", "why_tests_cant": "All dimensions and streams.", "anchors": ["include/boost/accumulators/numeric/functional/vector.hpp: operators, min_assign, max_assign, fdiv, as_min, as_max", "include/boost/accumulators/numeric/functional/valarray.hpp: operators, min_assign, max_assign, fdiv, as_min, as_max"]}
{"id": "C54", "title": "affine equivariance of quantile estimators", "statement": "Replacing every sample x by a*x+b with a>0 replaces tail quantiles, non-coherent tail means, P-square quantiles, extended P-square quantiles, interpolated quantiles, cumulative distribution heights, histogram bin edges and all medians by the same affine image, and leaves marker positions, cumulative values and bin fractions unchanged. The same holds for the weighted versions, for any weights.", "quantifier": "all streams, all a>0 and b", "why_tests_cant": "Hyperproperty on pairs of executions.", "anchors": ["include/boost/accumulators/statistics/p_square_quantile.hpp", "include/boost/accumulators/statistics/extended_p_square.hpp", "include/boost/accumulators/statistics/tail_quantile.hpp", "include/boost/accumulators/statistics/p_square_cumul_dist.hpp", "include/boost/accumulators/statistics/density.hpp", "include/boost/accumulators/statistics/median.hpp", "include/boost/accumulators/statistics/weighted_median.hpp", "include/boost/accumulators/statistics/weighted_tail_quantile.hpp"]}
{"id": "C55", "title": "left and right tails mirror each other", "statement": "The left tail (quantile, mean, POT fit, quantiles and tail means of that fit; weighted or not) of a stream is the negative of the right tail statistic of the negated stream with probability mirrored.", "quantifier": "all streams, cache sizes, thresholds, probabilities", "why_tests_cant": "Hyperproperty on pairs of executions.", "anchors": ["include/boost/accumulators/statistics/tail.hpp", "include/boost/accumulators/statistics/tail_quantile.hpp", "include/boost/accumulators/statistics/tail_mean.hpp", "include/boost/accumulators/statistics/peaks_over_threshold.hpp", "include/boost/accumulators/statistics/weighted_peaks_over_threshold.hpp", "include/boost/accumulators/statistics/pot_quantile.hpp", "include/boost/accumulators/statistics/pot_tail_mean.hpp"]}
{"id": "C56", "title": "legal calls never invoke undefined behaviour", "statement": "For a set built with valid parameters (cache_size >= 1, non-empty increasing probabilities in (0,1), num_cells >= 1, num_bins >= 1), no sequence of pushes and extractions with a probability in [0,1] reads outside a container, dereferences an end iterator or fails to terminate.", "quantifier": "all parameter values, all histories", "why_tests_cant": "All inputs; memory errors can hide in untested corners.", "anchors": ["include/boost/accumulators/statistics/tail_quantile.hpp", "include/boost/accumulators/statistics/median.hpp", "include/boost/accumulators/statistics/extended_p_square_quantile.hpp", "include/boost/accumulators/statistics/density.hpp", "include/boost/accumulators/statistics/weighted_tail_quantile.hpp"]}
{"id": "C57", "title": "Kahan summation forgets nothing", "statement": "Whatever rounding the addition of the sample type performs (and, with weights, the multiplication), as long as the correction arithmetic itself is exact, sum minus compensation of sum_kahan and weighted_sum_kahan always equals the initial value plus the exact total of the samples (with weights: of the products the type delivers).", "quantifier": "all streams, all initial values, every rounding of the addition", "why_tests_cant": "With exact arithmetic the compensation is invisible; with a given float type the loss shows only for special streams. The claim is about every rounding of every addition.", "anchors": ["include/boost/accumulators/statistics/sum_kahan.hpp: sum_kahan_impl::operator()", "include/boost/accumulators/statistics/weighted_sum_kahan.hpp: weighted_sum_kahan_impl::operator()"]}
{"id": "C58", "title": "sums of floating point samples stay within the rounding bound", "statement": "With samples of a binary floating point type with unit roundoff u, sum(acc) differs from the exact total by at most ((1+u)^n - 1) times the sum of the absolute values, weighted_sum by ((1+u)^(n+1) - 1) times the sum of the absolute products, for every stream that does not overflow or underflow.", "quantifier": "all streams, all monotone roundings with relative error u", "why_tests_cant": "A test compares with a fixed tolerance for a few streams; the bound is over all streams and all roundings.", "anchors": ["include/boost/accumulators/statistics/sum.hpp: sum_impl::operator()", "include/boost/accumulators/statistics/weighted_sum.hpp: weighted_sum_impl::operator()"]}
{"id": "C59", "title": "Kahan summation is accurate independent of the number of samples", "statement": "With unit roundoff u <= 1/32 the result of sum_kahan differs from the exact total by at most a small multiple of u (plus a term n*u^2) times the sum of the absolute values; there are streams of double on which sum loses samples altogether that sum_kahan retains.", "quantifier": "all streams, all monotone odd roundings with relative error u", "why_tests_cant": "The advantage shows only on special streams; the bound is over all.", "anchors": ["include/boost/accumulators/statistics/sum_kahan.hpp: sum_kahan_impl::operator()"]}
{"id": "C60", "title": "means and moments stay within the rounding bound", "statement": "In floating point arithmetic lazy mean, immediate mean and moment<N> differ from the exact values by at most an explicit bound of the form ((1+u)^k - 1) times the mean absolute value (power). Not guaranteed: the mean of equal samples being that sample.", "quantifier": "all streams, all monotone roundings with relative error u", "why_tests_cant": "Error bounds over all streams and roundings.", "anchors": ["include/boost/accumulators/statistics/mean.hpp: mean_impl, immediate_mean_impl", "include/boost/accumulators/statistics/moment.hpp: moment_impl"]}
{"id": "C61", "title": "the variance does not become negative by rounding", "statement": "In floating point arithmetic immediate variance, weighted immediate variance and immediate rolling variance are never negative, so that taking the square root is safe. (The lazy variance may be.)", "quantifier": "all streams, all window sizes, all monotone roundings", "why_tests_cant": "A negative result needs a special combination of rounding errors that a test is unlikely to hit; the claim is about all.", "anchors": ["include/boost/accumulators/statistics/variance.hpp: variance_impl, lazy_variance_impl", "include/boost/accumulators/statistics/weighted_variance.hpp: weighted_variance_impl", "include/boost/accumulators/statistics/rolling_variance.hpp: immediate_rolling_variance_impl"]}
{"id": "C62", "title": "the error of the rolling sum is bounded by everything ever pushed", "statement": "In floating point arithmetic rolling_sum differs from the total of the window by at most ((1+u)^(2n) - 1) times the sum of the absolute values of all n samples so far - not only those in the window: an error made by a sample long gone remains.", "quantifier": "all streams, window sizes, roundings", "why_tests_cant": "Drift builds up over long streams.", "anchors": ["include/boost/accumulators/statistics/rolling_sum.hpp: rolling_sum_impl::operator()"]}
{"id": "C63", "title": "the P-square markers stay ordered under rounding", "statement": "In floating point arithmetic with at least two bits, as long as the number of samples is representable, the heights of the markers of p_square_quantile, p_square_cumulative_distribution and extended_p_square remain non-decreasing between the exact minimum and maximum, the marker positions remain strictly increasing whole numbers from 1 to n, the estimates lie within the data, and no division by zero or access out of range occurs.", "quantifier": "all streams, probabilities, numbers of cells, all monotone roundings with relative error at most 2/5", "why_tests_cant": "The code compares with `<` after a rounded parabolic formula; whether rounding can break the order of the markers cannot be settled by samples.", "anchors": ["include/boost/accumulators/statistics/p_square_quantile.hpp: p_square_quantile_impl::operator()", "include/boost/accumulators/statistics/p_square_cumul_dist.hpp: p_square_cumulative_distribution_impl::operator()", "include/boost/accumulators/statistics/extended_p_square.hpp: extended_p_square_impl::operator()"]}
{"id": "C64", "title": "the histogram counts every sample exactly once under rounding", "statement": "In floating point arithmetic the computed bin edges of density are non-decreasing and start exactly at the least cached sample; every sample is counted in exactly one of the num_bins + 2 bins, namely the one whose computed edges enclose it; the counts are exact and sum to n, and no access out of range occurs. Not guaranteed: that the greatest cached sample lies in the overflow bin.", "quantifier": "all streams, cache sizes, numbers of bins, all monotone roundings", "why_tests_cant": "The bin is found by upper_bound on rounded edges; the corner cases are at the edges.", "anchors": ["include/boost/accumulators/statistics/density.hpp: density_impl::operator(), result"]}
{"id": "C65", "title": "every elementary statistic of a set is right, whatever else the set contains", "statement": "Construct an accumulator_set from any list of count, min, max, sum, mean, moment<N>, variance, skewness, kurtosis, covariance, error_of<mean> and their variants (lazy, immediate, kahan, of weights, of a covariate), in any order, droppable or not, with or without weights, and push any non-empty stream (positive weights). Then extracting any requested statistic, or any one used by a requested one, gives its textbook value computed from the whole stream, whichever variants were installed; two sets offering the same statistic agree on it. Not guaranteed: features that are installed but used by nobody, whose droppable accumulators stay at their initial value.", "quantifier": "all feature lists over the elementary statistics with one summed covariate, all iteration orders of the feature map, all streams", "why_tests_cant": "The combinations of variants, orders and droppable flags are exponentially many; which variant an accumulator reads its dependencies from depends on the whole list.", "anchors": ["include/boost/accumulators/framework/accumulator_set.hpp: accumulator_set::operator()", "include/boost/accumulators/framework/depends_on.hpp", "include/boost/accumulators/statistics/mean.hpp", "include/boost/accumulators/statistics/variance.hpp", "include/boost/accumulators/statistics/covariance.hpp", "include/boost/accumulators/statistics/kurtosis.hpp", "include/boost/accumulators/statistics/skewness.hpp", "include/boost/accumulators/statistics/error_of_mean.hpp"]}
{"id": "C66", "title": "statistics of integral samples", "statement": "With an integral sample type T: sum, lazy mean, moment<N> and weighted sum/mean are exact (no truncation) whenever the intermediate totals are values of T (for weights: of the common type); for signed T at least as wide as int a partial sum out of range is undefined behaviour, for unsigned and narrower T the sum is the total modulo 2^bits. rolling_sum of unsigned or narrow T is exact whenever the current window's total is representable, whatever overflowed before. immediate_mean is exact for all streams, immediate_rolling_mean for all streams if T is unsigned or narrow and, for signed T, if no two samples differ by more than the greatest value. Not guaranteed: that lazy and immediate means agree, that moment<2> of a representable sample is defined, that mixed signed samples and unsigned weights work.", "quantifier": "all widths and signednesses, all streams, window sizes, N", "why_tests_cant": "Overflow depends on the order and size of partial results; a test tries a few small numbers, and one that overflows shows nothing about undefined behaviour.", "anchors": ["include/boost/accumulators/statistics/sum.hpp: sum_impl::operator()", "include/boost/accumulators/statistics/mean.hpp: mean_impl, immediate_mean_impl", "include/boost/accumulators/statistics/moment.hpp: pow, moment_impl", "include/boost/accumulators/statistics/rolling_sum.hpp: rolling_sum_impl::operator()", "include/boost/accumulators/statistics/rolling_mean.hpp: immediate_rolling_mean_impl::operator()", "include/boost/accumulators/statistics/weighted_sum.hpp: weighted_sum_impl::operator()", "include/boost/accumulators/statistics/weighted_mean.hpp: weighted_mean_impl::result"]}
{"id": "C67", "title": "tail quantiles in floating point: the rank is off by at most one", "statement": "In floating point arithmetic with unit roundoff u, tail_quantile and tail_mean with probability p (rounded when passed) use a rank that differs from ceil(count * p) (right tail: ceil(count * (1 - p))) by at most one as long as 3 u count < 1, never exceeds count, and if count * p is a whole number m is m or m + 1; tail_quantile is exactly the sample of that rank, the tail mean the mean of that many most extreme samples up to the error of the additions. weighted_tail_quantile is a sample at which the accumulated weight reaches the wanted share up to 2((1+u)^(n+3)-1) times the total weight. Not guaranteed: the exact rank; in double the 0.7 quantile of ten samples taken from the right tail is the fourth greatest instead of the third.", "quantifier": "all streams, histories, cache sizes, probabilities, all monotone roundings with relative error u", "why_tests_cant": "Off-by-one ranks occur only for particular pairs of count and probability; a test checks a few with a tolerance.", "anchors": ["include/boost/accumulators/statistics/tail_quantile.hpp: tail_quantile_impl::result", "include/boost/accumulators/statistics/tail_mean.hpp: non_coherent_tail_mean_impl::result", "include/boost/accumulators/statistics/weighted_tail_quantile.hpp: weighted_tail_quantile_impl::result"]}
{"id": "C68", "title": "tail variates and tail weights stay attached to the tail in every set", "statement": "In a set constructed from any list of features, after any stream, tail(acc) lists the most extreme samples, and tail_variate(acc) and tail_weights(acc) list, position by position, the covariate and the weight that were pushed together with these samples, each push used at most once. Not guaranteed for droppable features: droppable<tail_variate> and droppable<tail_weights> (also when they come in as dependencies of a droppable feature) are never assigned; with weights, droppable<tail_quantile<Side>> never yields a number.", "quantifier": "all combinations of compatible features, request orders, streams, weights, cache sizes, heap implementations", "why_tests_cant": "The tail writes into the other accumulators through a visitor that selects by type; which accumulators are found depends on the combination of features.", "anchors": ["include/boost/accumulators/statistics/tail.hpp: tail_impl::assign, is_tail_variate_feature, assign_variate", "include/boost/accumulators/statistics/tail_variate.hpp: tail_variate_impl::assign", "include/boost/accumulators/framework/accumulators/droppable_accumulator.hpp: feature_of<tag::droppable<Feature>>, as_droppable", "include/boost/accumulators/framework/depends_on.hpp: to_accumulator"]}
{"id": "C69", "title": "every estimator returns in any set what it returns alone", "statement": "In a set constructed from any list of compatible features (elementary and rolling statistics, histograms, P-square and extended P-square estimators, medians, tail estimators, peaks over threshold; weighted or not; in any order), after any non-empty stream with positive weights, extracting a requested estimator gives exactly what the same estimator gives in a set that contains only it and its dependencies; elementary statistics have their textbook value. Two sets offering the same estimator agree on it.", "quantifier": "all combinations of compatible features, request orders, orders of compile-time maps, streams, parameters, heap implementations", "why_tests_cant": "There are infinitely many combinations of features, variants replace each other as dependencies, and the order of updates is computed at compile time; tests try a few sets.", "anchors": ["include/boost/accumulators/framework/accumulator_set.hpp: accumulator_set::operator(), extract", "include/boost/accumulators/framework/depends_on.hpp: make_accumulator_tuple", "include/boost/accumulators/framework/extractor.hpp: extractor::operator()", "include/boost/accumulators/statistics/: all headers"]}
{"id": "C70", "title": "no undefined behaviour and no endless loop for sensible arguments", "statement": "In a set constructed from any list of compatible features, with sizes at least 1, sorted probabilities and a peaks-over-threshold probability inside (0, 1), after any non-empty stream of samples within the limits of their type (positive weights, covariates of one dimension), extracting any requested feature with a probability inside (0, 1) yields a number, NaN or infinity, or throws; it neither has undefined behaviour nor runs for ever. Exceptions, each of them a failure: medians read from histograms, quadratic interpolation between two probabilities, and weighted means of tail covariates whose cache does not hold enough weight.", "quantifier": "all combinations of compatible features, request orders, streams, parameters, heap implementations", "why_tests_cant": "Undefined behaviour need not show in a test, and an endless loop depends on an interplay of cache size, weights and probability.", "anchors": ["include/boost/accumulators/statistics/tail_quantile.hpp: tail_quantile_impl::result", "include/boost/accumulators/statistics/weighted_tail_variate_means.hpp: weighted_tail_variate_means_impl::result", "include/boost/accumulators/statistics/extended_p_square_quantile.hpp: extended_p_square_quantile_impl::result", "include/boost/accumulators/statistics/median.hpp: with_density_median_impl::result, with_p_square_cumulative_distribution_median_impl::result", "include/boost/accumulators/statistics/density.hpp: density_impl::operator()", "include/boost/accumulators/framework/accumulator_set.hpp: accumulator_set::extract"]}
{"id": "C71", "title": "looking at a set does not change what it says", "statement": "Construct a set from any list of features, none of them droppable, and push samples and extract features in any order. Extracting a feature gives the same result as after the same pushes without any extraction, although extraction sorts, rebuilds and caches in the accumulator asked and in those it asks in turn. Exceptions, each of them a failure: features that use a histogram median or a peaks-over-threshold fit, and features that use covariates or weights kept with the tail when samples are equal. With sensible arguments every such program is free of undefined behaviour and endless loops.", "quantifier": "all lists of features, request orders, histories of pushes and extractions, parameters, heap implementations", "why_tests_cant": "The number of ways to interleave pushes with extractions of features that share accumulators is unbounded, and a stale cache shows only after particular sequences.", "anchors": ["include/boost/accumulators/framework/accumulator_set.hpp: accumulator_set::extract, extract_result", "include/boost/accumulators/statistics/tail.hpp: tail_impl::result", "include/boost/accumulators/statistics/density.hpp: density_impl::result", "include/boost/accumulators/statistics/p_square_cumul_dist.hpp: p_square_cumulative_distribution_impl::result", "include/boost/accumulators/statistics/median.hpp: with_density_median_impl::result, with_p_square_cumulative_distribution_median_impl::result", "include/boost/accumulators/statistics/peaks_over_threshold.hpp: peaks_over_threshold_impl::result"]}
{"id": "C72", "title": "statistics of complex samples", "statement": "For samples of type std::complex<T>, unweighted or with real weights, sums and means are the sums and means of the real and of the imaginary parts; moments, variances and covariances are the textbook expressions with complex squares and products, in the lazy and the immediate variant alike. The variance is therefore not the mean squared distance from the mean: its real part is the variance of the real parts minus that of the imaginary parts and its imaginary part twice their covariance, so that it may be negative, imaginary, or zero for different samples. With complex weights weighted sums and means are right unless an initial sample is passed: the sum then starts from the initial sample times 1+i.", "quantifier": "all lists of complex samples, with or without weights whose partial sums are not zero; exact arithmetic on the parts", "why_tests_cant": "The arithmetic of complex samples uses operators of its own and a unit of its own; a wrong part shows only for samples with both parts nonzero, and agreement for all samples cannot be tested.", "anchors": ["include/boost/accumulators/numeric/functional/complex.hpp: operator *, operator /, one<std::complex<T> >", "include/boost/accumulators/statistics/mean.hpp: mean_impl, immediate_mean_impl", "include/boost/accumulators/statistics/moment.hpp: moment_impl", "include/boost/accumulators/statistics/variance.hpp: lazy_variance_impl, variance_impl", "include/boost/accumulators/statistics/covariance.hpp: covariance_impl", "include/boost/accumulators/statistics/weighted_sum.hpp: weighted_sum_impl", "include/boost/accumulators/statistics/weighted_mean.hpp: weighted_mean_impl, immediate_weighted_mean_impl", "include/boost/accumulators/statistics/weighted_variance.hpp: lazy_weighted_variance_impl, weighted_variance_impl"]}
{"id": "C73", "title": "the statistics of one set are consistent with each other", "statement": "After at least one sample, with positive weights where there are weights, what a set answers fits together, whichever variants, requests and processing order were chosen: min <= mean <= max, with equality only when min = max; 0 <= variance <= (max-mean)(mean-min) <= (max-min)^2/4, and the variance is zero exactly when min = max; variance = moment<2> - mean^2; sum = mean * count (mean * sum_of_weights with weights) and sum_of_weights = mean_of_weights * count; covariance^2 <= variance * variance of the covariates; kurtosis >= skewness^2 - 2. The rolling mean lies between min and max of the whole stream and the rolling variance obeys the corresponding range bound; a non-coherent right (left) tail mean lies between the mean and the maximum (minimum and mean).", "quantifier": "all sets of elementary statistics in every variant, all processing orders allowed by the dependencies, all non-empty streams of samples with positive weights, exact arithmetic", "why_tests_cant": "A test compares each statistic with a number computed for its stream; that different statistics computed by different accumulators with different formulas can never contradict each other is a statement about all streams and all sets.", "anchors": ["include/boost/accumulators/statistics/mean.hpp: mean_impl, immediate_mean_impl", "include/boost/accumulators/statistics/variance.hpp: lazy_variance_impl, variance_impl", "include/boost/accumulators/statistics/moment.hpp: moment_impl", "include/boost/accumulators/statistics/kurtosis.hpp: kurtosis_impl", "include/boost/accumulators/statistics/skewness.hpp: skewness_impl", "include/boost/accumulators/statistics/covariance.hpp: covariance_impl", "include/boost/accumulators/statistics/min.hpp: min_impl", "include/boost/accumulators/statistics/max.hpp: max_impl", "include/boost/accumulators/statistics/rolling_variance.hpp: immediate_rolling_variance_impl", "include/boost/accumulators/statistics/tail_mean.hpp: non_coherent_tail_mean_impl"]}
{"id": "C74", "title": "quantile estimates are non-decreasing in the probability", "statement": "For one stream, quantile(acc, quantile_probability=p) taken from a tail, weighted or not, is non-decreasing in p, also across the two tails, different cache sizes and extractions in between: from the left it is the sample of rank ceil(count*p), from the right the sample of rank floor(count*p)+1, so the two agree unless count*p is an integer. Non-coherent tail means, weighted or not, and linearly interpolated extended P-square quantiles are non-decreasing in p as well. Not monotone are coherent tail means, quadratically interpolated quantiles, and estimates of separate p_square_quantile accumulators for different probabilities.", "quantifier": "all streams, all pairs of probabilities, both sides, all cache sizes and heap implementations", "why_tests_cant": "Monotonicity relates the answers to all pairs of probabilities on all streams; a test sees a few probabilities of one stream.", "anchors": ["include/boost/accumulators/statistics/tail_quantile.hpp: tail_quantile_impl", "include/boost/accumulators/statistics/weighted_tail_quantile.hpp: weighted_tail_quantile_impl", "include/boost/accumulators/statistics/tail_mean.hpp: non_coherent_tail_mean_impl, coherent_tail_mean_impl", "include/boost/accumulators/statistics/weighted_tail_mean.hpp: non_coherent_weighted_tail_mean_impl", "include/boost/accumulators/statistics/extended_p_square_quantile.hpp: extended_p_square_quantile_impl", "include/boost/accumulators/statistics/p_square_quantile.hpp: p_square_quantile_impl"]}
{"id": "C75", "title": "samples of weight zero do not matter", "statement": "Pushing a sample with weight 0 does not change the sum of weights, the weighted sum, weighted mean, weighted moments, lazy weighted variance or weighted kurtosis of any stream; nor the immediate weighted mean, the recursive weighted variance and the weighted covariance if no partial sum of weights is zero; nor a weighted histogram once its cache is full; nor a weighted tail quantile if the cache holds all samples. Exceptions: a first sample of weight 0 makes the immediate weighted mean and the recursive variance NaN for ever; a weightless sample occupies a place in the cache of a histogram or of a tail and moves the edges of a histogram; extremes and P-square estimates do not look at the weight.", "quantifier": "all streams, all positions and numbers of weightless samples, all mean implementations, all heap implementations", "why_tests_cant": "A test can drop the weightless samples from one stream and compare; that they never matter concerns every stream and every position, and fails only for the positions named.", "anchors": ["include/boost/accumulators/statistics/weighted_sum.hpp: weighted_sum_impl", "include/boost/accumulators/statistics/weighted_mean.hpp: immediate_weighted_mean_impl", "include/boost/accumulators/statistics/weighted_moment.hpp: weighted_moment_impl", "include/boost/accumulators/statistics/weighted_variance.hpp: weighted_variance_impl, lazy_weighted_variance_impl", "include/boost/accumulators/statistics/weighted_kurtosis.hpp: weighted_kurtosis_impl", "include/boost/accumulators/statistics/weighted_covariance.hpp: weighted_covariance_impl", "include/boost/accumulators/statistics/weighted_density.hpp: weighted_density_impl", "include/boost/accumulators/statistics/weighted_tail_quantile.hpp: weighted_tail_quantile_impl", "include/boost/accumulators/statistics/weighted_p_square_quantile.hpp: weighted_p_square_quantile_impl"]}
{"id": "C76", "title": "infinite and NaN samples, overflow", "statement": "If sum, sum_kahan, mean, moment<N>, lazy_variance, skewness, kurtosis, error_of<mean>, or with two samples variance, covariance or error_of<immediate_mean>, is a finite number, then every sample was: once such a result is infinite or NaN it stays so. One NaN sample makes them NaN. Sum and both means follow extended arithmetic in any order: NaN if there is a NaN or both infinities, else infinite if there is an infinity, else the mean. The lazy variance is NaN if one sample is not finite; variance is NaN then too, except that it is 0 for a single sample whatever it is, and infinite if only the first sample is infinite, so it depends on the order. After an infinite sum_kahan the next sample makes it NaN. min and max skip NaN and never are NaN; of +inf (resp. -inf) and NaN only, they are the largest (lowest) finite number. Rolling sum, moments and lazy mean are those of the window until a non-finite sample leaves it, then NaN for ever. The immediate rolling mean skips NaN and is a wrong finite number for ever after; it reproduces a constant stream exactly without overflow, while both means overflow for two samples near the largest number and the lazy variance when the squares overflow.", "quantifier": "all streams with any number and position of non-finite samples; the first and second sentence for all floating point formats (rounding and range), the rest in exact arithmetic extended by infinities and NaN unless said otherwise", "why_tests_cant": "A test pushes one NaN at one place; that no stream recovers, and which streams give which non-finite value, concerns all streams and positions.", "anchors": ["include/boost/accumulators/statistics/sum.hpp: sum_impl", "include/boost/accumulators/statistics/sum_kahan.hpp: sum_kahan_impl", "include/boost/accumulators/statistics/mean.hpp: mean_impl, immediate_mean_impl", "include/boost/accumulators/statistics/moment.hpp: moment_impl", "include/boost/accumulators/statistics/variance.hpp: lazy_variance_impl, variance_impl", "include/boost/accumulators/statistics/covariance.hpp: covariance_impl", "include/boost/accumulators/statistics/kurtosis.hpp: kurtosis_impl", "include/boost/accumulators/statistics/min.hpp: min_impl", "include/boost/accumulators/statistics/max.hpp: max_impl", "include/boost/accumulators/statistics/rolling_sum.hpp: rolling_sum_impl", "include/boost/accumulators/statistics/rolling_moment.hpp: rolling_moment_impl", "include/boost/accumulators/statistics/rolling_mean.hpp: lazy_rolling_mean_impl, immediate_rolling_mean_impl", "include/boost/accumulators/statistics/skewness.hpp: skewness_impl", "include/boost/accumulators/statistics/error_of_mean.hpp: error_of_mean_impl"]}
{"id": "C77", "title": "memory does not grow with the stream", "statement": "The number of elements in the containers of an accumulator set is bounded by a number computed from the constructor arguments alone: window_size + 1 for the rolling window, cache_size + 3 (num_bins + 2) for a histogram, 15 (weighted: 10) for a P-square quantile, 4 (weighted: 3) times num_cells + 1 for the cumulative distribution, 3 (weighted: 2) times 2 q + 3 for the extended P-square with q probabilities, twice cache_size for a tail, cache_size for each of its variates and weights, and none for every other feature. This holds however many samples are pushed, whatever is extracted in between and whatever is dropped, and no accumulator is ever added to the set.", "quantifier": "all feature sets, weighted or not, with droppable features or not, all arguments and all histories of pushes, extractions and drops without undefined behaviour", "why_tests_cant": "A test can push a million samples into one set; the bound is about every set and every history.", "anchors": ["include/boost/accumulators/framework/accumulator_set.hpp: accumulator_set::operator (), drop", "include/boost/accumulators/statistics/rolling_window.hpp: rolling_window_plus1_impl", "include/boost/accumulators/statistics/density.hpp: density_impl", "include/boost/accumulators/statistics/weighted_density.hpp: weighted_density_impl", "include/boost/accumulators/statistics/p_square_quantile.hpp: p_square_quantile_impl", "include/boost/accumulators/statistics/p_square_cumul_dist.hpp: p_square_cumulative_distribution_impl", "include/boost/accumulators/statistics/extended_p_square.hpp: extended_p_square_impl", "include/boost/accumulators/statistics/tail.hpp: tail_impl", "include/boost/accumulators/statistics/tail_variate.hpp: tail_variate_impl"]}
{"id": "C78", "title": "weighted means and moments stay within the rounding bound", "statement": "In floating point arithmetic with unit roundoff u, for n samples with non-negative weights of positive sum: weighted_mean and weighted_moment<N> are numbers and differ from the exact values by at most ((1+u)^(n+N+1)/(1-u)^n - 1) times the weighted mean of the absolute values (powers), N = 1 for the mean. weighted_sum_kahan differs from the exact sum by about 6u times the sum of the absolute products, independent of n to first order. immediate_weighted_mean, if the first weight is positive, differs by about 6nu times the largest absolute sample. Not guaranteed: that the error of immediate_weighted_mean is small relative to the weighted mean of the absolute values; one heavy weight can wipe out everything before.", "quantifier": "all rounding modes and precisions, all streams without overflow or underflow", "why_tests_cant": "The worst case over all streams and weights cannot be found by sampling, and a reference in the same precision has the same errors.", "anchors": ["include/boost/accumulators/statistics/weighted_mean.hpp: weighted_mean_impl, immediate_weighted_mean_impl", "include/boost/accumulators/statistics/weighted_moment.hpp: weighted_moment_impl", "include/boost/accumulators/statistics/weighted_sum_kahan.hpp: weighted_sum_kahan_impl"]}
{"id": "C79", "title": "the variance stays within the rounding bound", "statement": "In floating point arithmetic with unit roundoff u, for n samples: lazy_variance differs from the exact population variance by at most 2((1+u)^(2n+4) - 1) times the mean square (2((1+u)^(6n+2) - 1) if it reads the immediate mean), lazy_weighted_variance by at most 2((1+u)^(2n+6)/(1-u)^(2n) - 1) times the weighted mean square, and variance by at most ((1+u)^(29n) - 1) times the square of the largest absolute sample ((1+u)^(13n+8) - 1 if it reads the lazy mean). Not guaranteed: an error of lazy_variance that is small relative to the variance itself.", "quantifier": "all rounding modes and precisions in which the number of samples is representable, all streams without overflow or underflow; non-negative weights of positive sum", "why_tests_cant": "The worst case over all streams cannot be found by sampling.", "anchors": ["include/boost/accumulators/statistics/variance.hpp: lazy_variance_impl, variance_impl", "include/boost/accumulators/statistics/weighted_variance.hpp: lazy_weighted_variance_impl"]}
{"id": "C80", "title": "results that are ranges into the accumulator", "statement": "density, p_square_cumulative_distribution (and their weighted versions) return a range that shows what the last extraction of the feature returned: it does not change when samples are pushed or features dropped or other features extracted, but the next extraction, also one made by a median that reads the histogram, replaces what earlier ranges show. A range returned by extended_p_square always shows the current estimates. A range returned by tail keeps its length and shows as many samples of the current tail in no particular order: all of them if the tail was full, otherwise not necessarily the most extreme ones (after 3, 2 were returned, pushing 1 makes the range show 2, 1).", "quantifier": "all sets of features of the library, weighted or not, with or without droppable features, all arguments, all programs of pushes, extractions and drops before and after the range was obtained", "why_tests_cant": "A test reads the range at once, where it cannot be told from a copy.", "anchors": ["include/boost/accumulators/statistics/density.hpp: density_impl::result", "include/boost/accumulators/statistics/weighted_density.hpp: weighted_density_impl::result", "include/boost/accumulators/statistics/p_square_cumul_dist.hpp: p_square_cumulative_distribution_impl::result", "include/boost/accumulators/statistics/weighted_p_square_cumul_dist.hpp: weighted_p_square_cumulative_distribution_impl::result", "include/boost/accumulators/statistics/extended_p_square.hpp: extended_p_square_impl::result", "include/boost/accumulators/statistics/weighted_extended_p_square.hpp: weighted_extended_p_square_impl::result", "include/boost/accumulators/statistics/tail.hpp: tail_impl::result, detail::make_tail_range", "include/boost/accumulators/statistics/median.hpp: with_density_median_impl::result"]}
{"id": "C81", "title": "integer weights as multiplicities in the estimators", "statement": "A set that receives samples with integer weights and a set that receives every sample as often as its weight says give the same tail quantile (if both caches hold enough of the tail and the tail is not the whole unweighted cache), the same tail mean if the tail ends between the copies of different samples, the same density histogram (positive weights; unweighted cache size = number of copies of the first cache_size samples) and the same peaks-over-threshold fit with given threshold. The tail mean differs if the tail ends within the copies of a sample, the tail quantile at full level, and the P-square estimators differ in general; scaling all weights changes the P-square estimate.", "quantifier": "all streams, all non-negative (density, tail mean: positive) integer weights, both tails, all probabilities, cache sizes and numbers of bins, all histories with interleaved extractions (peaks over threshold: extractions at the end)", "why_tests_cant": "Hyperproperty relating two sets of different type with streams of different length.", "anchors": ["include/boost/accumulators/statistics/weighted_tail_quantile.hpp: weighted_tail_quantile_impl::result", "include/boost/accumulators/statistics/tail_quantile.hpp: tail_quantile_impl::result", "include/boost/accumulators/statistics/weighted_tail_mean.hpp: non_coherent_weighted_tail_mean_impl::result", "include/boost/accumulators/statistics/tail_mean.hpp: non_coherent_tail_mean_impl::result", "include/boost/accumulators/statistics/weighted_density.hpp: weighted_density_impl", "include/boost/accumulators/statistics/density.hpp: density_impl", "include/boost/accumulators/statistics/weighted_peaks_over_threshold.hpp: weighted_peaks_over_threshold_impl", "include/boost/accumulators/statistics/peaks_over_threshold.hpp: peaks_over_threshold_impl", "include/boost/accumulators/statistics/weighted_p_square_quantile.hpp: weighted_p_square_quantile_impl", "include/boost/accumulators/statistics/p_square_quantile.hpp: p_square_quantile_impl"]}
{"id": "C82", "title": "modifiers select the variant and nothing else", "statement": "feature(modifier) in a list of features stands for a variant of the feature: it provides the same abstract feature, different modifiers give different variants, a name that takes one modifier takes exactly its alternatives, every variant can be asked for in this way, error_of of a feature with a modifier needs that variant and no other, and in a set with weights it becomes the weighted feature with the same modifier. If it comes before every other request for the same abstract feature, exactly this variant is installed, for the features that depend on it too, and the extractor of the plain, weighted, droppable or differently modified name finds it. In exact arithmetic the modifiers of the elementary statistics do not change any requested statistic. A modified request after another request for the same feature has no effect; a modifier without a specialisation does not compile (sum_of_variates with kahan).", "quantifier": "all lists of requests with modifiers, droppable and error_of, weighted or not, every order of the compile-time maps; for the results all streams and all positive weights", "why_tests_cant": "The table has about fifty entries in twenty headers and the claim is about every set that contains one of them; tests extract a few in sets of their own.", "anchors": ["include/boost/accumulators/framework/depends_on.hpp: as_feature, as_feature_list, checked_as_weighted_feature, matches_feature", "include/boost/accumulators/framework/accumulators/droppable_accumulator.hpp: as_feature<tag::droppable<Feature> >", "include/boost/accumulators/framework/extractor.hpp: do_extract", "include/boost/accumulators/statistics/error_of.hpp: as_feature<tag::error_of<Feature> >", "include/boost/accumulators/statistics/with_error.hpp: with_error", "include/boost/accumulators/statistics/mean.hpp: as_feature", "include/boost/accumulators/statistics/variance.hpp: as_feature", "include/boost/accumulators/statistics/median.hpp: as_feature", "include/boost/accumulators/statistics/sum_kahan.hpp: as_feature"]}
{"id": "C83", "title": "weights kept in another set", "statement": "Let a set be declared with external<Weight> and another set collect the weights. If every weight is pushed to the set of the weights before its sample is pushed with weights = the set of the weights, every requested elementary statistic extracted with weights = that set is the statistic of the weighted samples. If none of the accumulators looks at the sum of the weights while a sample is pushed, the order does not matter, the two sets must only agree on the total weight at the time of the extraction. A statistic of the weights alone is what the set of the weights says. In the order of the library's own test (sample first) the immediate weighted mean and the recursive variance are not numbers, and with all the weights pushed first they are wrong.", "quantifier": "all requests of elementary statistics for both sets, every order of the compile-time maps, all streams, all positive weights, all interleavings of the pushes to the two sets", "why_tests_cant": "Tests feed two sets in one order and extract one lazily computed feature; which features depend on the order shows only in the definitions of all of them.", "anchors": ["include/boost/accumulators/framework/depends_on.hpp: to_accumulator<Feature, Sample, external<Weight, Tag, AccumulatorSet> >", "include/boost/accumulators/framework/accumulators/external_accumulator.hpp: external_impl", "include/boost/accumulators/framework/external.hpp: external", "include/boost/accumulators/framework/accumulator_set.hpp: operator()", "include/boost/accumulators/framework/extractor.hpp: do_extract", "include/boost/accumulators/statistics/weighted_mean.hpp: immediate_weighted_mean_impl", "include/boost/accumulators/statistics/weighted_variance.hpp: weighted_variance_impl"]}
{"id": "C84", "title": "weighted covariances of vectors", "statement": "With vector samples of one dimension and a scalar covariate, or the other way round, weighted_covariance is the vector whose i-th component is the weighted covariance of the i-th components with the scalar, sum of w (x - mx)(y - my) over the sum of w. With samples and covariate both vectors of the same dimension it is the matrix whose entry (i, j) is the weighted covariance of the i-th component of the covariate with the j-th component of the sample, the transpose of the documented order. With vectors of different dimensions the behaviour is undefined from the second sample on.", "quantifier": "all dimensions, all non-empty streams whose partial sums of weights are not zero, lazy and immediate weighted means on either side, zero initial vectors (any initial vectors for the different dimensions)", "why_tests_cant": "A test has one dimension and square matrices of four samples; it checks the numbers of one stream, and no test has vectors of different dimensions.", "anchors": ["include/boost/accumulators/statistics/weighted_covariance.hpp: weighted_covariance_impl", "include/boost/accumulators/statistics/covariance.hpp: numeric::functional::outer_product_base", "include/boost/accumulators/statistics/weighted_mean.hpp: weighted_mean_impl, immediate_weighted_mean_impl", "include/boost/accumulators/numeric/functional/vector.hpp"]}
{"id": "C85", "title": "P-square heights with weights stay ordered under rounding", "statement": "In floating point arithmetic with at least two bits, the marker heights of weighted_p_square_quantile, weighted_p_square_quantile_for_median, weighted_extended_p_square and weighted_p_square_cumulative_distribution, and of the unweighted p_square_quantile and extended_p_square for any number of samples, are non-decreasing from the least sample to the greatest sample, both exact. So every estimate lies within the samples seen and no read is undefined. The marker positions, by contrast, can coincide once the sum of the weights absorbs a weight.", "quantifier": "all finite streams, all weights, all numbers of samples including those that are no longer representable, all probabilities, all queries in between; every rounding that is monotone, keeps 0 and 1 and by which a positive number divided by a larger-than-one number becomes smaller", "why_tests_cant": "A test has a few thousand samples with weights of similar size; the failure that is excluded needs rounding of the sum of the weights to make two marker positions coincide.", "anchors": ["include/boost/accumulators/statistics/weighted_p_square_quantile.hpp: weighted_p_square_quantile_impl", "include/boost/accumulators/statistics/weighted_extended_p_square.hpp: weighted_extended_p_square_impl", "include/boost/accumulators/statistics/weighted_p_square_cumul_dist.hpp: weighted_p_square_cumulative_distribution_impl", "include/boost/accumulators/statistics/p_square_quantile.hpp: p_square_quantile_impl", "include/boost/accumulators/statistics/extended_p_square.hpp: extended_p_square_impl"]}
{"id": "C86", "title": "weighted histogram under rounding", "statement": "In floating point arithmetic, once the cache is full weighted_density lists for each bin its computed lower edge and the quotient of the running floating point sum of the weights of exactly the samples between the computed edges by the running sum of all weights. The edges are non-decreasing and the first proper one is the least cached sample, so every sample is in exactly one bin. With non-negative weights that are not all zero, every fraction is between 0 and 1, its relative error is at most (1+u)^(n+1)/(1-u)^n - 1 and the fractions sum to 1 within the same bound.", "quantifier": "all histories of pushes and queries with at least cache-size samples, all positive numbers of bins and cache sizes, all monotone roundings (with relative error u < 1 for the bounds), no bound on the number of samples", "why_tests_cant": "A test compares one histogram of random numbers within a tolerance; it cannot show that the computed edges stay ordered for all ranges and bin counts, nor bound the error for all weights.", "anchors": ["include/boost/accumulators/statistics/weighted_density.hpp: weighted_density_impl", "include/boost/accumulators/statistics/sum.hpp: sum_impl"]}
{"id": "C87", "title": "histograms with infinite and NaN samples", "statement": "density and weighted_density are defined for every stream of floating point samples, infinite and NaN ones and overflow included: the search in the bin edges never violates its precondition. Once the cache is full every sample is counted in exactly one bin; NaN is counted in the overflow bin. But if +inf is cached, or the difference of the greatest and the least cached sample overflows, all samples but the +inf and NaN ones end up in one bin whose edge is NaN; and if -inf is cached every sample ends up in the overflow bin and all edges but the first are NaN.", "quantifier": "all histories of pushes and queries, all samples of the format, all weights, all positive cache sizes and numbers of bins that the format can represent, every monotone rounding with any overflow threshold", "why_tests_cant": "Tests use random numbers from a bounded range; a finite set of tests cannot exclude that some mixture of infinities, NaN and overflow makes std::upper_bound search an unpartitioned range.", "anchors": ["include/boost/accumulators/statistics/density.hpp: density_impl", "include/boost/accumulators/statistics/weighted_density.hpp: weighted_density_impl"]}
{"id": "C88", "title": "P-square estimators with NaN and infinite samples", "statement": "If the samples that fill the markers are numbers, no sample is infinite and nothing overflows, then any number of NaN samples after that never reach the estimates of p_square_quantile, median, extended_p_square and their weighted versions: every estimate is a number between two of the samples, estimates for increasing markers are in order, and nothing is undefined. The estimate itself is not that of the remaining samples: NaN samples advance the desired positions only, and with every second sample NaN the median of 1 to 25 is 23. One infinite sample, or an overflowing difference of finite samples, can make the median infinite and later the search among the marker heights undefined.", "quantifier": "all histories of pushes and queries with NaN at any later places, all probabilities and all finite weights, every monotone rounding without overflow by which dividing by a number greater than 1 makes smaller", "why_tests_cant": "Tests push finite random numbers; where NaN or infinite samples are placed in a stream and how often cannot be enumerated, and the undefined search usually goes unnoticed.", "anchors": ["include/boost/accumulators/statistics/p_square_quantile.hpp: p_square_quantile_impl", "include/boost/accumulators/statistics/extended_p_square.hpp: extended_p_square_impl", "include/boost/accumulators/statistics/weighted_p_square_quantile.hpp: weighted_p_square_quantile_impl", "include/boost/accumulators/statistics/weighted_extended_p_square.hpp: weighted_extended_p_square_impl"]}
{"id": "C89", "title": "tails with NaN and infinite samples", "statement": "If the samples that fill the cache are not NaN, NaN samples never enter it: tail(acc) is the list of the most extreme samples that are not NaN, infinite ones included, and variates and weights stay attached. tail_quantile is the n-th most extreme of them, but n is computed from the number of all samples, so NaN samples count as the least extreme ones of whichever tail is cached and the quantiles of both tails disagree: the median of 1 to 5 and two NaN is 4 from the left and 2 from the right. The tail mean is the mean of the n most extreme ones in extended arithmetic. If all samples that fill the cache are NaN the tail is NaN for ever, whatever follows; if some of them are, and two others differ, the comparison given to the heap algorithms is not a strict weak order, which is undefined.", "quantifier": "all histories of pushes and queries, all cache sizes, both sides, every conforming heap implementation, every floating point format (the mean in exact arithmetic with infinities)", "why_tests_cant": "Tests push finite numbers; the effect of NaN depends on its position relative to the size of the cache and the undefined comparison usually goes unnoticed.", "anchors": ["include/boost/accumulators/statistics/tail.hpp: tail_impl", "include/boost/accumulators/statistics/tail_variate.hpp: tail_variate_impl", "include/boost/accumulators/statistics/tail_quantile.hpp: tail_quantile_impl", "include/boost/accumulators/statistics/tail_mean.hpp: non_coherent_tail_mean_impl"]}
{"id": "C90", "title": "infinite and NaN samples and weights", "statement": "If a weighted sum (compensated or not), weighted mean (lazy or immediate), weighted moment, lazy weighted variance, weighted skewness, weighted kurtosis, or with two samples weighted variance or weighted covariance, is a finite number, then every sample and every weight was. A NaN sample, whatever its weight, even 0, makes them NaN; an infinite or NaN weight makes both weighted means NaN. With positive finite weights both weighted means and the moments follow extended arithmetic in any order: NaN if there is a NaN or both infinities, else infinite if there is an infinity, else the weighted mean; the lazy weighted variance is NaN if a sample is not finite. An infinite sample of weight 0 makes the weighted mean NaN. If the sum of the weights overflows, the weighted mean of finite samples is 0 although all samples are equal and not 0, and the immediate one is NaN.", "quantifier": "all streams with any number and position of non-finite samples and weights; sentences one and two for all floating point formats (rounding and range), the rest in exact arithmetic extended by infinities and NaN, the last one in a format with a largest number", "why_tests_cant": "A test pushes one NaN at one place; that no stream recovers, and which streams give which non-finite value, concerns all streams, weights and positions.", "anchors": ["include/boost/accumulators/statistics/weighted_sum.hpp: weighted_sum_impl", "include/boost/accumulators/statistics/weighted_sum_kahan.hpp: weighted_sum_kahan_impl", "include/boost/accumulators/statistics/weighted_mean.hpp: weighted_mean_impl, immediate_weighted_mean_impl", "include/boost/accumulators/statistics/weighted_moment.hpp: weighted_moment_impl", "include/boost/accumulators/statistics/weighted_variance.hpp: lazy_weighted_variance_impl, weighted_variance_impl", "include/boost/accumulators/statistics/weighted_covariance.hpp: weighted_covariance_impl", "include/boost/accumulators/statistics/weighted_kurtosis.hpp: weighted_kurtosis_impl", "include/boost/accumulators/statistics/weighted_skewness.hpp: weighted_skewness_impl"]}
{"id": "C91", "title": "variances, windows and tails of integral samples", "statement": "For samples of an integer type, variance is the variance of the samples as real numbers whatever the samples if the set has the immediate mean, and with the lazy mean if the partial sums are values of the type; lazy_variance if the sum of the squares is a value of the type. rolling_moment<M> needs only each power to be a value, lazy_rolling_variance each square and a correct rolling mean, immediate_rolling_variance only that no two samples differ by more than the greatest value. tail_quantile is the n-th most extreme sample and throws instead of returning NaN when the cache is too short. The tail mean is not truncated to an integer and right if the totals of the most extreme samples are values of the type, and undefined otherwise for signed types of 32 or more bits. The weighted tail quantile and mean of integral samples and weights are those of the samples and weights as real numbers if the weights are not negative, their sum is a value of their type and, for the mean, samples, weights and the total of |x| w are values of the type of the product; with negative samples and unsigned weights the mean is wrong.", "quantifier": "all integer types (signed or unsigned, any width), all streams of values, all window and cache sizes, both tails, all probabilities, every conforming heap implementation", "why_tests_cant": "Tests of integral samples use a few small values; the claim concerns all streams and says exactly where overflow, wrapping or truncation sets in.", "anchors": ["include/boost/accumulators/statistics/variance.hpp: lazy_variance_impl, variance_impl", "include/boost/accumulators/statistics/rolling_moment.hpp: rolling_moment_impl", "include/boost/accumulators/statistics/rolling_variance.hpp: lazy_rolling_variance_impl, immediate_rolling_variance_impl", "include/boost/accumulators/statistics/tail_quantile.hpp: tail_quantile_impl", "include/boost/accumulators/statistics/tail_mean.hpp: non_coherent_tail_mean_impl", "include/boost/accumulators/statistics/weighted_tail_quantile.hpp: weighted_tail_quantile_impl", "include/boost/accumulators/statistics/weighted_tail_mean.hpp: non_coherent_weighted_tail_mean_impl"]}
{"id": "C92", "title": "rolling means and moments under rounding", "statement": "In a floating point type whose operations have relative error at most u, after n pushes with c values in the window: the lazy rolling_mean differs from the mean of the window by at most ((1+u)^(2n+1)-1) S/c, where S is the sum of |x| over everything ever pushed (not only the window); rolling_moment<M> from the mean M-th power of the window by at most ((1+u)^(2n+M)-1) S_M/c with S_M the sum of |x^M| over everything pushed; the immediate rolling_mean from the mean of the window by at most ((1+u)^(3n)-1) (S+S')/c, with S' the sum of |x| over the samples that left the window. That samples that left the window appear in the bounds is not an artefact: in double, after 10^16, 1, 0, 0, 0 the window of size two is [0, 0] and both means are -1/2.", "quantifier": "all roundings of relative error u with 0 exact and exact counts, all windows, all streams, all M > 0", "why_tests_cant": "Tests compare rolling means on a few small numbers with a tolerance; the error depends on the whole history of the stream, also on samples long gone from the window.", "anchors": ["include/boost/accumulators/statistics/rolling_mean.hpp: lazy_rolling_mean_impl, immediate_rolling_mean_impl", "include/boost/accumulators/statistics/rolling_moment.hpp: rolling_moment_impl", "include/boost/accumulators/statistics/rolling_sum.hpp: rolling_sum_impl"]}
{"id": "C93", "title": "covariance under rounding", "statement": "In a floating point type whose operations have relative error at most u, the covariance of n pairs with |x| <= A and |y| <= B differs from the exact one by at most 8((1+u)^(29n)-1)AB if the means are updated recursively, and by at most 8((1+u)^(13n+8)-1)AB if they are sums divided by the count. Exchanging sample and covariate changes no bit of the result, and the covariance of the samples with themselves is bit for bit their variance if rounding commutes with the change of sign. Relative to the covariance itself nothing is guaranteed: of the four corners of the unit square, whose covariance is 0, double yields -2^-56.", "quantifier": "all roundings of relative error u with exact counts, all streams of pairs, all means with the stated error", "why_tests_cant": "Tests compare a covariance of a few numbers with a tolerance; the bound is for all streams, and bitwise equalities are not tested.", "anchors": ["include/boost/accumulators/statistics/covariance.hpp: covariance_impl", "include/boost/accumulators/statistics/variance.hpp: variance_impl", "include/boost/accumulators/statistics/mean.hpp: mean_impl, immediate_mean_impl"]}
{"id": "C94", "title": "recursive weighted variance and covariance under rounding", "statement": "If the partial sums of the weights are representable, the weights are not negative, the first is positive and no weight multiplies the sum of weights by more than r, then weighted_variance differs from the exact weighted variance by at most ((1+u)^(6n)(1+r(4d+d^2))-1)M^2 for samples with |x| <= M, where d M bounds the error of the mean it reads, and weighted_covariance by at most 4r times the same factor times AB. The conditions hold for integral weights from 1 to m whose sum is representable, with r = m+1. They cannot be dropped: with weights 1 and 2^54 in double, sum_of_weights - weight is 0 and both results are divisions by zero, while lazy_weighted_variance is finite.", "quantifier": "all roundings of relative error u < 1, all streams of weighted samples meeting the conditions", "why_tests_cant": "Tests use weights of similar size; the failure needs a weight large compared to the sum of those before it, and the bound is for all streams.", "anchors": ["include/boost/accumulators/statistics/weighted_variance.hpp: weighted_variance_impl", "include/boost/accumulators/statistics/weighted_covariance.hpp: weighted_covariance_impl", "include/boost/accumulators/statistics/weighted_mean.hpp: weighted_mean_impl, immediate_weighted_mean_impl"]}
{"id": "C95", "title": "rolling variances under rounding", "statement": "In a floating point type whose operations have relative error at most u, after n samples with |x| <= B of which w >= 2 are in the window of size N, the immediate rolling_variance differs from the sample variance of the window by at most ((1+u)^(2n+1) 2n c + ((1+u)^(2n+1)-1)(N+4)B^2)/(w-1), where c = ((1+u)^3-1)(2B+E)^2 + E(4B+E) and E bounds the error of the rolling mean: E = ((1+u)^(3n)-1) 2B max(1,n/N) for the immediate mean, E = ((1+u)^(2n+1)-1) B max(1,n/N) for the lazy one. The lazy rolling_variance differs by at most ((1+u)^(4n+6)-1) 2 (B max(1,n/N))^2 w/(w-1). B has to bound every sample ever pushed, not only those of the window: after 10^16, 1, 0, 0, 0 in double the lazy variance of the window 0, 0 is -3/2; after 10^16 followed by 1, 3, 1, 3, ... the immediate variance of every window 1, 3 is 0 instead of 2, however long the stream.", "quantifier": "all roundings of relative error u with exact counts up to the window size, all streams, all window sizes", "why_tests_cant": "A test looks at a short stream of samples of similar size; that an outlier spoils the result for ever, and the bound for all streams, are not settled by examples.", "anchors": ["include/boost/accumulators/statistics/rolling_variance.hpp: lazy_rolling_variance_impl, immediate_rolling_variance_impl, prevent_underflow", "include/boost/accumulators/statistics/rolling_mean.hpp: lazy_rolling_mean_impl, immediate_rolling_mean_impl", "include/boost/accumulators/statistics/rolling_moment.hpp: rolling_moment_impl"]}
{"id": "C96", "title": "kurtosis under rounding", "statement": "In a floating point type whose operations have relative error at most u, after n samples with |x| <= B, variance v > 0 and fourth standardised moment k, kurtosis differs from k - 3 by at most (1+u)^2 (28+8k) d (B^2/v)^2 + (1+u) u k + u |k-3|, provided 8 d (B^2/v)^2 <= 1, where d = (1+u)^(6n+17)-1 with the mean computed from the sum and d = (1+u)^(14n+13)-1 with the mean updated recursively. For weighted_kurtosis with non-negative weights of positive sum the same holds with u replaced by w = (1+u)/(1-u) - 1 and d = (1+w)^(6n+23)-1 (mean from the weighted sum) or d = (1+w)^(18n+15)-1 (mean updated recursively, first weight positive). The condition matters: in double the kurtosis of 10000, 10001, 10002, 10003 is -3 (the exact value is -1.36, and no kurtosis is less than -2), and that of 100000, ..., 100003 exceeds 80000.", "quantifier": "all roundings of relative error u with exact counts, all non-constant samples and non-negative weights, both means", "why_tests_cant": "A test compares a few samples near zero with a tolerance; how fast the result degrades with the offset of the sample, and a bound for all samples, are not settled by examples.", "anchors": ["include/boost/accumulators/statistics/kurtosis.hpp: kurtosis_impl", "include/boost/accumulators/statistics/weighted_kurtosis.hpp: weighted_kurtosis_impl", "include/boost/accumulators/statistics/moment.hpp: moment_impl", "include/boost/accumulators/statistics/mean.hpp: mean_impl, immediate_mean_impl"]}
{"id": "C97", "title": "skewness and error_of<mean> under rounding", "statement": "In a floating point type whose operations, std::sqrt included, have relative error at most u: after n samples with |x| <= B, standard deviation s > 0 and skewness g, skewness differs from g by at most (1+u)(12 d (B/s)^3 + 2 t |g|) + u |g|, provided t <= 1/2, where d = (1+u)^(4n+10)-1 with the mean computed from the sum, d = (1+u)^(10n+7)-1 with the mean updated recursively, and t = (1+u)^2 (1 + 2 d (B/s)^2)^2 - 1. For weighted_skewness with non-negative weights of positive sum the same holds with u replaced by w = (1+u)/(1-u) - 1 and exponents 4n+14 and 13n+8. error_of<mean> and error_of<immediate_mean> of n >= 2 samples of variance V differ from sqrt(V/(n-1)) by a relative error of at most (1+u)^2 (1+h) - 1, provided (1+u)(1+h) <= 2, where h is the relative error of the variance used (2((1+u)^(2n+4)-1) m2/V for lazy_variance with mean, m2 the mean of the squares, and ((1+u)^(29n)-1) B^2/V for variance with immediate_mean). The conditions matter: wherever lazy_variance comes out negative, skewness and error_of<mean> are NaN; in double this happens for 100000001, 100000002, 100000002.", "quantifier": "all roundings of relative error u with exact counts, all non-constant samples, all non-negative weights, all providers of the mean", "why_tests_cant": "A test compares a few samples near zero with a tolerance; how the error grows with the offset of the sample, that the result turns into NaN for ordinary samples, and a bound for all samples are not settled by examples.", "anchors": ["include/boost/accumulators/statistics/skewness.hpp: skewness_impl", "include/boost/accumulators/statistics/weighted_skewness.hpp: weighted_skewness_impl", "include/boost/accumulators/statistics/error_of_mean.hpp: error_of_mean_impl", "include/boost/accumulators/statistics/variance.hpp: lazy_variance_impl, variance_impl", "include/boost/accumulators/statistics/moment.hpp: moment_impl"]}
{"id": "C98", "title": "tail means under rounding", "statement": "In a floating point type whose operations have relative error at most u < 1, with exact counts. Weighted: if non_coherent_tail_mean for the level p of a set with non-negative weights returns a value, this is the weighted mean of some n most extreme samples up to ((1+u)^(n+2)/(1-u)^n - 1) times the weighted mean of their absolute values; these n samples weigh at least T - e and any fewer of the most extreme weigh less than T + e, where T is the wanted share of the total weight W and e = 2((1+u)^(count+3)-1) W. It does return a value if e < T and the cached weights add up to T + e or more. The samples averaged need not be the n that exact arithmetic would choose: in double, for the samples 1, 2, 9 with weights 0.1, 0.3, 0.1 and level 0.8, the result is 1.75, the exact one for the same numbers 3.2. The same holds, component by component, for the weighted tail_variate_means. Unweighted, with n the computed rank and |x| <= B: coherent_tail_mean differs from its formula by at most ((1+u)^(n+6)-1)(B + 2B/n); every component of tail_variate_means, with variates bounded by C, differs from the mean of that component over the pairs of the n most extreme samples by at most ((1+u)^(n+1)-1) C; and every component of relative_tail_variate_means from the ratio r of that mean to the tail mean M by at most (1+u) 2d (C + |r| B)/|M| + u |r|, d = (1+u)^(n+2)-1, provided 2 d B <= |M|.", "quantifier": "all roundings of relative error u with exact counts, all histories of pushes and extractions, all sizes, levels, samples and non-negative weights, both tails, every heap implementation", "why_tests_cant": "Tests use sample values and weights that are small integers or compare with a loose tolerance; that the choice of the samples averaged depends on rounding and by how much weight it can be off is a statement about all weights.", "anchors": ["include/boost/accumulators/statistics/weighted_tail_mean.hpp: non_coherent_weighted_tail_mean_impl", "include/boost/accumulators/statistics/tail_mean.hpp: coherent_tail_mean_impl, non_coherent_tail_mean_impl", "include/boost/accumulators/statistics/tail_variate_means.hpp: tail_variate_means_impl", "include/boost/accumulators/statistics/weighted_tail_variate_means.hpp: weighted_tail_variate_means_impl"]}
{"id": "C99", "title": "a change of units by a power of two is exact in floating point", "statement": "Call a factor s exact for a floating point type if rounding commutes with multiplication by s; for round-to-nearest binary formats these include all powers of two and their negatives (overflow and underflow aside). If all samples are multiplied by an exact s, every result changes by the corresponding factor in every bit, and the outcome (value, not finite, exception, undefined) is the same: sum and sum_kahan by s, both means by s, moment<N> by s^N, the four combinations of variance and mean by s^2, covariance by s t when the covariate is multiplied by t, kurtosis not at all; with a square root that follows the factor and s > 0, skewness not at all and error_of<mean> by s; a change of sign of all samples changes the sign of the skewness and nothing in error_of<mean>. Weighted: the sums by s t when the weights are multiplied by t, the means, moments, variances, covariance, skewness and kurtosis as without weights, whatever t. Rolling sum, means, moments, variances likewise (a negative s requires a rounding symmetric about 0). For s > 0 and after any history of pushes and extractions: p_square_quantile, median, extended_p_square, both interpolated quantiles, the P-square cumulative distribution and its median, the weighted versions of the P-square estimators, and, with the samples within the limits of the type, density, its median and weighted_density: heights and bin positions are multiplied, probabilities and fractions stay. Other factors do not have this property: in double 10 * (0.1 + 0.2) is not 10 * 0.1 + 10 * 0.2.", "quantifier": "all roundings and all factors exact for them, all binary formats with round-to-nearest and all powers of two, all streams and histories", "why_tests_cant": "A test scales one data set by one factor and compares with a tolerance; bit-for-bit equality for every stream is a statement about the order and kind of every rounded operation in the accumulators.", "anchors": ["include/boost/accumulators/statistics/sum.hpp: sum_impl", "include/boost/accumulators/statistics/sum_kahan.hpp: sum_kahan_impl", "include/boost/accumulators/statistics/mean.hpp: mean_impl, immediate_mean_impl", "include/boost/accumulators/statistics/moment.hpp: moment_impl", "include/boost/accumulators/statistics/variance.hpp: lazy_variance_impl, variance_impl", "include/boost/accumulators/statistics/covariance.hpp: covariance_impl", "include/boost/accumulators/statistics/kurtosis.hpp: kurtosis_impl", "include/boost/accumulators/statistics/skewness.hpp: skewness_impl", "include/boost/accumulators/statistics/error_of_mean.hpp: error_of_mean_impl", "include/boost/accumulators/statistics/weighted_variance.hpp: weighted_variance_impl", "include/boost/accumulators/statistics/weighted_covariance.hpp: weighted_covariance_impl", "include/boost/accumulators/statistics/rolling_mean.hpp: immediate_rolling_mean_impl", "include/boost/accumulators/statistics/rolling_variance.hpp: immediate_rolling_variance_impl", "include/boost/accumulators/statistics/p_square_quantile.hpp: p_square_quantile_impl", "include/boost/accumulators/statistics/extended_p_square_quantile.hpp: extended_p_square_quantile_impl", "include/boost/accumulators/statistics/density.hpp: density_impl", "include/boost/accumulators/statistics/median.hpp: median_impl, with_density_median_impl, with_p_square_cumulative_distribution_median_impl"]}
{"id": "C100", "title": "extremes, tails and weighted medians under a change of units or of sign, in floating point", "statement": "Let s be an exact factor of the floating point type (C99): a power of two or the negative of one in a binary format. Multiplying all samples by s > 0 multiplies min, max, the cached tail, tail_quantile, the non-coherent and the coherent tail mean by s in every bit, after any history of pushes and extractions and whatever the heap functions of the standard library do within their specification; the cached variates and weights come out in the same order; the outcome (value, NaN, exception, undefined) is the same. With s < 0, min and max change places and the two tails change places: the left tail of the multiplied samples is the right tail of the original ones, multiplied, and the same holds for tail quantile and non-coherent tail mean at the probability that belongs to the same level. Tail variate means change by the factor u of the variates, relative ones by u/s. Weighted tail quantile, tail mean and variate means do the same, whatever the positive exact factor of the weights. The weighted medians from the cumulative distribution and (with samples within the limits of the type) from the histogram follow s > 0. The exception: the coherent tail mean of one tail is not that of the other after a change of sign, because the correction terms of the two tails differ.", "quantifier": "all roundings, all factors exact for them, all cache sizes, all heap implementations meeting the standard, all histories, all probabilities", "why_tests_cant": "A test compares one stream with its mirror image on one standard library; that ties, the order of cached variates and every rounded operation agree for all streams is a statement about the algorithm.", "anchors": ["include/boost/accumulators/statistics/min.hpp: min_impl", "include/boost/accumulators/statistics/max.hpp: max_impl", "include/boost/accumulators/statistics/tail.hpp: tail_impl", "include/boost/accumulators/statistics/tail_variate.hpp: tail_variate_impl", "include/boost/accumulators/statistics/tail_quantile.hpp: tail_quantile_impl", "include/boost/accumulators/statistics/tail_mean.hpp: coherent_tail_mean_impl, non_coherent_tail_mean_impl", "include/boost/accumulators/statistics/tail_variate_means.hpp: tail_variate_means_impl", "include/boost/accumulators/statistics/weighted_tail_quantile.hpp: weighted_tail_quantile_impl", "include/boost/accumulators/statistics/weighted_tail_mean.hpp: non_coherent_weighted_tail_mean_impl", "include/boost/accumulators/statistics/weighted_tail_variate_means.hpp: weighted_tail_variate_means_impl", "include/boost/accumulators/statistics/weighted_median.hpp: with_density_weighted_median_impl, with_p_square_cumulative_distribution_weighted_median_impl"]}
{"id": "C101", "title": "whole-number samples in floating point: sums are exact, only the final division is rounded", "statement": "Let the floating point type represent the whole numbers up to B (B = 2^53 for double) and let the samples be whole numbers. While the sum of the absolute values is at most B, sum is the exact sum, sum_kahan is the exact sum with compensation zero, and mean is the exact mean rounded once (hence exact whenever the mean is a whole number). While the sum of the absolute N-th powers is at most B, moment<N> is the exact moment rounded once; lazy_variance is the exact second moment and mean, each rounded once, combined by one product and one difference. Consequently sum, sum_kahan, mean, moment<N> and lazy_variance return the same bits for every order of the samples. weighted_sum with whole weights is exact and weighted_mean is rounded once under the same bound on the sum of |x w| and of |w|. rolling_sum, lazy_rolling_mean and rolling_moment<M> with samples of absolute value at most b and (window_size + 1) b^M <= B are the exact sum, the once rounded mean and the once rounded moment of the window after any number of samples: there is no drift. immediate_mean does not have this property: for 9, 9, 1, 3, 3, 1, 3, 1 in double it returns 3.7500000000000004 where mean returns 3.75.", "quantifier": "all roundings that represent the whole numbers up to B, all lists of whole numbers within the bound, all N, window sizes and stream lengths", "why_tests_cant": "A test uses a few short streams; that no rounding ever happens inside the sum, and that a rolling sum does not drift after arbitrarily many samples, is an induction over the stream.", "anchors": ["include/boost/accumulators/statistics/sum.hpp: sum_impl", "include/boost/accumulators/statistics/sum_kahan.hpp: sum_kahan_impl", "include/boost/accumulators/statistics/mean.hpp: mean_impl, immediate_mean_impl", "include/boost/accumulators/statistics/moment.hpp: moment_impl", "include/boost/accumulators/statistics/variance.hpp: lazy_variance_impl", "include/boost/accumulators/statistics/weighted_sum.hpp: weighted_sum_impl", "include/boost/accumulators/statistics/weighted_mean.hpp: weighted_mean_impl", "include/boost/accumulators/statistics/rolling_sum.hpp: rolling_sum_impl", "include/boost/accumulators/statistics/rolling_mean.hpp: lazy_rolling_mean_impl", "include/boost/accumulators/statistics/rolling_moment.hpp: rolling_moment_impl"]}
{"id": "C102", "title": "a constant signal in floating point", "statement": "Let all n samples be the same number c. For every c: immediate_rolling_mean is exactly c and rolling_variance over it is exactly 0 after any number of samples; p_square_quantile, extended_p_square and their weighted versions (whatever the weights) are exactly c after any history with at least as many samples as markers; variance is exactly 0 as long as the mean it uses has been exactly c after every sample. If c is a whole number and n |c| does not exceed the largest B such that all whole numbers up to B are representable (2^53 for double), mean and immediate_mean are exactly c; if n c^2 <= B as well, variance and lazy_variance over either mean are exactly 0. For other constants this is false: with c = 0.1 in double, the variances over mean and over immediate_mean of three samples are not 0, and lazy_rolling_mean in a window of three is not c after five samples.", "quantifier": "all roundings (with exact counts), all constants, all window sizes, all signal lengths within the stated bounds, all histories of the quantile estimators", "why_tests_cant": "A test can try a few constants and lengths; that the deviation is exactly zero for every constant and length is an induction over the signal with the rounding of every operation taken into account.", "anchors": ["include/boost/accumulators/statistics/mean.hpp: mean_impl, immediate_mean_impl", "include/boost/accumulators/statistics/variance.hpp: lazy_variance_impl, variance_impl", "include/boost/accumulators/statistics/rolling_mean.hpp: immediate_rolling_mean_impl, lazy_rolling_mean_impl", "include/boost/accumulators/statistics/rolling_variance.hpp: immediate_rolling_variance_impl", "include/boost/accumulators/statistics/p_square_quantile.hpp: p_square_quantile_impl", "include/boost/accumulators/statistics/extended_p_square.hpp: extended_p_square_impl", "include/boost/accumulators/statistics/weighted_p_square_quantile.hpp: weighted_p_square_quantile_impl", "include/boost/accumulators/statistics/weighted_extended_p_square.hpp: weighted_extended_p_square_impl"]}
{"id": "C103", "title": "raising samples never lowers the result", "statement": "Take two streams of the same length, the second at least as large as the first at every position. Then, in floating point with any monotone rounding, the second never has the smaller sum, mean, immediate_mean, min, max, moment<N> (samples not negative), weighted_sum, weighted_mean or immediate_weighted_mean (same weights, none negative); its cached left or right tail is entry by entry at least as large, and so are tail_quantile and non_coherent_tail_mean, wherever extractions were interleaved and whatever variates were cached. Both streams also have the same kind of outcome (a number, not a number, an exception). weighted_tail_quantile (same weights, none negative; when both results are numbers, whatever the cache sizes) has it in exact arithmetic, and so have rolling_sum and both rolling means once there is a sample and with a window that is not empty. Some results do not have it: in double, rolling_sum (window 2: 1, 1, 0 gives 1 but 2^53, 1, 0 gives 0) and sum_kahan; and p_square_quantile even in exact arithmetic (median of 1, 3, 3, 1, 2, 4, 2 is estimated as 8/3, with the first sample raised to 2 as 7/3).", "quantifier": "all roundings, all pairs of streams ordered position by position, all cache sizes, all moments, all window sizes, all interleavings of extractions", "why_tests_cant": "A test compares finitely many pairs of streams; the claim relates two executions step by step through every rounding, and for the tails through the reordering done by the heap.", "anchors": ["include/boost/accumulators/statistics/sum.hpp: sum_impl", "include/boost/accumulators/statistics/sum_kahan.hpp: sum_kahan_impl", "include/boost/accumulators/statistics/mean.hpp: mean_impl, immediate_mean_impl", "include/boost/accumulators/statistics/moment.hpp: moment_impl", "include/boost/accumulators/statistics/min.hpp: min_impl", "include/boost/accumulators/statistics/max.hpp: max_impl", "include/boost/accumulators/statistics/weighted_sum.hpp: weighted_sum_impl", "include/boost/accumulators/statistics/weighted_mean.hpp: weighted_mean_impl, immediate_weighted_mean_impl", "include/boost/accumulators/statistics/tail.hpp: tail_impl", "include/boost/accumulators/statistics/tail_quantile.hpp: tail_quantile_impl", "include/boost/accumulators/statistics/tail_mean.hpp: non_coherent_tail_mean_impl", "include/boost/accumulators/statistics/weighted_tail_quantile.hpp: weighted_tail_quantile_impl", "include/boost/accumulators/statistics/rolling_sum.hpp: rolling_sum_impl", "include/boost/accumulators/statistics/rolling_mean.hpp: lazy_rolling_mean_impl, immediate_rolling_mean_impl", "include/boost/accumulators/statistics/p_square_quantile.hpp: p_square_quantile_impl"]}
{"id": "C104", "title": "what one more sample does", "statement": "Compare the result before and after a single push. In floating point with any monotone rounding, a sample that is not negative never lowers sum and one that is not positive never raises it. In exact arithmetic, mean and immediate_mean (of a non-empty stream) move towards the new sample x by (x - mean)/(n+1), never past it, and stay where they are only if x equals the mean; count times variance, in either variant over either mean, grows by n/(n+1) times (x - mean)^2 and never shrinks. The entries of the cached left or right tail only move outwards, and the new tail is the most extreme part of the old tail and x, whatever left the cache before and wherever the tail was looked at. Not every result behaves like this: in double a third sample 0.1 moves either mean of 0.1, 0.1 away from 0.1, and p_square_quantile, even in exact arithmetic, can be moved by a sample equal to the estimate (median after 0, 0, 2, 6, 1, 5 estimated as 1; a further 1 raises it to 5/3).", "quantifier": "all roundings, all streams, all new samples, all cache sizes, all interleavings of extractions", "why_tests_cant": "A test pushes particular samples; the claim is about every stream that may have come before, including what the heap has already discarded.", "anchors": ["include/boost/accumulators/statistics/sum.hpp: sum_impl", "include/boost/accumulators/statistics/mean.hpp: mean_impl, immediate_mean_impl", "include/boost/accumulators/statistics/variance.hpp: lazy_variance_impl, variance_impl", "include/boost/accumulators/statistics/tail.hpp: tail_impl", "include/boost/accumulators/statistics/p_square_quantile.hpp: p_square_quantile_impl"]}
