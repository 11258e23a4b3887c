# Formal model of Boost.Accumulators: design and trusted base

The code under study is `/repo` (boostorg/accumulators).  The model and the
proofs are a Lean 4 + Mathlib project in `lean/`.  Nothing in `/repo` is built
or run; the model is written from the text of the headers, and every definition
of the model cites the file and lines it stands for.

## Layout

| path | contents |
|---|---|
| `properties.jsonl` | the properties, C01, C02, ... |
| `MANIFEST.json` | per property: status, theorem names, what is missing |
| `seeded/LOG.jsonl` | the wrong programs tried against the theorems |
| `lean/Verif/Spec/` | specifications in plain mathematics (sum, mean, central moments, "last N", "k most extreme", the P² algorithm as published, generalized Pareto, ...). They do not import a model file, except `Spec/Features`, which speaks about libraries of features and imports the definition of such a library. |
| `lean/Verif/Model/` | the code, function by function, as total computable functions |
| `lean/Verif/Proofs/` | helper lemmas and invariants |
| `lean/Verif/Props/` | the property theorems `Cnn_*`, each accompanied by an `example` on a concrete case |
| `lean/Verif/Audit.lean` | walks over every constant of the development while it is built and fails the build if one depends on an axiom other than the three below |

## Trusted base

* Lean 4.33.0's kernel, and Mathlib as a source of definitions (fields, orders,
  lists, `Real.sqrt`, `Real.rpow`).
* The axioms `propext`, `Classical.choice`, `Quot.sound`, nothing else.
  `Audit.lean` enforces this during `lake build`.  No `sorry`, no own axioms, no
  `native_decide`, no `bv_decide`.  Concrete witnesses are evaluated with
  `decide +kernel` or `norm_num`.
* The reading of the C++ text by which the model was written.  This is the part
  no machine has checked.  The places where the model simplifies are listed
  below and repeated at the definitions.
* The reading of the C++ standard for library algorithms (heap operations,
  `lower_bound`, `max_element`, `circular_buffer`, ...), see below.

## Conventions of the model

* **Arithmetic is exact** unless a definition says otherwise.  A floating point
  type is an arbitrary linearly ordered field `K`, an integral type is `ℤ`/`ℕ`
  or `BitVec w` where wrap-around is the point (`count`).  `sqrt`/`pow` live in
  `ℝ`.
* **Rounded arithmetic** is treated as well (C58 to C64, C67).  The model of most
  accumulators is written for a law-free `class Arith` (the operations and the
  conversion from integers, nothing assumed about them), of which every field is
  an instance.  `Fl R` is another: the values representable under a rounding
  function `R` (monotone, idempotent, odd, exact on 0 and 1), each operation
  being the exact one followed by `R`.  `nearest p` is such a rounding, to `p`
  bits, ties to even; `double` is `nearest 53`.  Its exponent is unbounded.  The
  theorems on rounding are about the very definitions the exact theorems are about.
  `Ext F` (C76) is a third instance: the numbers of a format `F` (a rounding and a
  largest number) with infinities and NaN, operations as in IEEE 754.
* **Outcomes are explicit.**  A result is a `Res α`: `val a`, `nonfinite` (NaN
  or infinity, all identified, absorbing), `thrown`, `ub` (read outside a
  container, `end()` dereferenced, failed assertion, ...), `diverges`.  Lean's
  `x / 0 = 0` is never observable: `fdiv a 0 = nonfinite`.
* **State** of an accumulator: a structure with the data members of the class;
  `step` is `operator()`, `result` is `result(args)`.  Values of other
  accumulators read through `args` are parameters; composite sets are stepped in
  the order in which the framework calls the accumulators, and the framework
  part proves which order that is.
* **Extraction that mutates** (`mutable` members) is a state transformer, so a
  history is a list of `push`/`query` operations (`Model/History`).
* **Standard library algorithms** with unspecified layout (`push_heap`,
  `pop_heap`, `sort_heap`) are modelled by a contract (`Model/Heap`); theorems
  hold for every implementation satisfying it, and `HeapImpl.simple` shows that
  the contract is satisfiable.
* **Unspecified orders**: the iteration order of the compile-time map of features
  is a parameter `ord` (any permutation); the order in which a compiler evaluates
  function arguments is a parameter too.

## What is modelled

| model file | headers (`include/boost/accumulators/`) |
|---|---|
| `Res` | `numeric/functional.hpp`: `fdiv` |
| `Basic` | `statistics/`: `count`, `sum`, `sum_kahan`, `mean` (both), `moment` (with its `pow`), `variance` (both), `skewness`, `kurtosis`, `covariance` (scalar), `min`, `max`, `error_of`, `error_of_mean`; `numeric::as_min`, `as_max` |
| `Weighted` | `weighted_sum`, `weighted_sum_kahan`, `weighted_mean`, `weighted_moment`, `weighted_variance`, `weighted_skewness`, `weighted_kurtosis`, `weighted_covariance`, `sum_of_weights` etc. |
| `Root` | `skewness`, `weighted_skewness`, `error_of_mean` over any number type with a square root; over the reals these are the definitions of `Basic` and `Weighted` (`skewnessWith_real`, `errorOfMeanWith_real`) |
| `Rolling`, `RollSet` | `rolling_window`, `rolling_count`, `rolling_sum`, `rolling_mean`, `rolling_moment`, `rolling_variance` (lazy and immediate) |
| `Round`, `Ext` | rounded arithmetic, infinities and NaN: no code of the library, the sample type |
| `Heap`, `Tail` | `tail`, `tail_variate`, `tail_quantile`, `tail_mean`, `tail_variate_means` |
| `WTail` | `weighted_tail_quantile`, `weighted_tail_mean`, `weighted_tail_variate_means` |
| `Density`, `Median` | `density`, `weighted_density`, `median`, `weighted_median` (all variants) |
| `PSquare` | `p_square_quantile`, `p_square_cumul_dist`, `extended_p_square`, `extended_p_square_quantile` and the weighted versions of these |
| `Pot` | `peaks_over_threshold`, `pot_quantile`, `pot_tail_mean` and the weighted versions |
| `Vec`, `VecStats` | checked containers; `numeric/functional/vector.hpp`, `numeric/functional/valarray.hpp`, statistics of `std::vector` and `std::valarray` samples (class `Container`), covariance with vectors |
| `Framework` | `framework/depends_on.hpp` (feature map, dependency closure, sort, `find`), `accumulator_set.hpp`, `droppable_accumulator.hpp` (reference counts) |
| `AccSet` | `accumulator_set::operator()`, `extract`, `drop` for arbitrary accumulators |
| `StdLib` | the `depends_on`, `feature_of`, `as_weighted_feature` declarations of every statistics header |
| `Modifiers` | the `as_feature` declarations of every statistics header (`feature(modifier)`), of `error_of.hpp` and `droppable_accumulator.hpp`; `with_error.hpp` |
| `ExtWeights` | `to_accumulator` for `external<Weight>` (`depends_on.hpp`), `external_impl` (`external_accumulator.hpp`): a set with external weights beside the set of the weights |
| `VecWCov` | `weighted_covariance` with vector samples, vector covariates or both (`weighted_covariance.hpp`) |
| `IntEst` | `variance`, `lazy_variance`, `rolling_moment`, the rolling variances, `tail_quantile`, `non_coherent_tail_mean` and the weighted ones, for samples and weights of an integer type |
| `Wrappers` | construction (`build_acc_list`), `cached_result`, `external`, `reference`, `value` |
| `StatSet` | the elementary statistics of `Basic` and `Weighted` as the accumulators of a set with the declarations of `StdLib`, each reading the others through the set |
| `XSet`, `FullSet` | sets in which an accumulator may write into others while it is updated (`tail_impl::assign`); all statistics of `Basic`, `Weighted`, `Rolling`, `Density`, `Median`, `PSquare`, `Tail`, `WTail`, `Pot` as accumulators of such a set, each reading the others through it. Extraction is a function of the state, after pushes only; the fit of `peaks_over_threshold` is read once where the code reads it up to three times |
| `QuerySet` | extraction from a set of `FullSet` with all its effects: what a `result()` extracts in turn, and the members it sorts, rebuilds or caches; histories in which pushes and extractions alternate. What is extracted on some paths of a `result()` only is extracted on all of them; after an exception or undefined behaviour see the comments at `settle` and `queryStep`. |
| `Cplx` | `numeric/functional/complex.hpp` and the accumulators for complex samples: means, moments, variances, covariance, weighted sum, mean, moment and variances. The operators of `std::complex` are the textbook ones on exact parts. |
| `IntSamples` | `sum`, `mean` (both), `moment`, `rolling_sum`, `immediate_rolling_mean`, `weighted_sum`, `weighted_mean` for samples (and weights) of an integral type of any width: promotion, usual conversions, signed overflow undefined, unsigned modulo; `double` exact |
| `Serial`, `SetSerial` | the `serialize` functions, `accumulator_set::serialize` |

## What is not modelled

* Boost.Parameter argument packs and keyword lookup, beyond the presence or
  absence of a named argument; template instantiation errors; Fusion/MPL
  structures other than as lists.
* For `std::valarray` samples: `outer_product` of two arrays, `modulus`, the conversion of an
  array of `bool` to `bool`.
* `times2_iterator` (modelled as multiplication of the index by two),
  `ublas` expression templates (a matrix is a list of rows), ring layout of
  `circular_buffer`.
* Floating point formats: signed zeros, underflow, and the different kinds of
  NaN; overflow, infinite and NaN samples only for the basic and rolling
  statistics (C76), histograms (C87), P-square estimators (C88), tails (C89) and weighted
  statistics (C90), elsewhere all are `nonfinite`.
  NaN among the samples that are sorted first makes `std::sort` undefined; `insertionSort`
  has a value there, and no theorem is about it.  Extended precision of
  intermediate results and fused multiply-add are not modelled either.
* Archive formats: a token is read back as it was written.
* The extractors as function objects, threads, exceptions thrown by the allocator.
* The construction arguments `sample = x0` where a definition says so (they are
  modelled for sums, means, moments, variances; not for peaks over threshold).

## Properties that are false of the code

Where the expected property does not hold, a theorem states the negation with a
witness, and a theorem ending in `_partial` states what does hold.

1. `coherent_tail_mean<left>`: operator precedence slip (`C20_left_actual`, `C20_left_wrong`).
2. `tail_quantile`: `n = 0` undefined, `n = size` rejected (`C18_zero_ub`, `C18_boundary_rejected`).
3. `extended_p_square_quantile`, quadratic, with two probabilities reads out of range (`C25_quadratic_two_ub`); the quadratic estimate may leave the data range (`C25_quadratic_not_within`).
4. `peaks_over_threshold`: extraction changes later extractions, one extraction too early poisons the set for good (`C30_not_transparent`, `C30_poisoned`, `C30_prob_left_flips`, ...); undefined on an empty tail (`C56_pot_prob_ub`).
5. `with_density_median`: a second extraction restarts in the middle of the histogram (`C28_density_median_second_ub`, `_not_transparent`); undefined when the mass is in the overflow bin or the cache is not full (`C29_density_median_overflow_ub`, `_before_full_ub`).
6. `with_p_square_cumulative_distribution_median`: wrong bracket, reads past the end (`C29_cumul_median_wrong`, `_ub`, `_last_ub`).
7. `weighted_p_square_cumulative_distribution`: the last value is below 1 (`C40_last_below_one`).
8. `weighted_tail_variate_means`: endless loop when the cached weight does not suffice (`C38_diverges`); `weighted_tail_quantile` with threshold 0 (`C37_zero_ub`).
9. Serialization: `weighted_peaks_over_threshold` omits `w_sum_` (`C52_fails`); reference counts are not saved (`C52_drop_fails`).
10. The relation by which accumulators are sorted is not transitive: an accumulator may be updated before one it depends on (`C44_fails`), and adding a feature may change another result (`C45_fails`).
11. `drop<F>` follows the dependencies of the abstract feature (`C48_fails`, `_assertion`, `_never_released`).
12. Different covariates, or the two tails, share one abstract feature: only the first is installed (`C42_covariates_collide`, `C42_tails_collide`).
13. `numeric::as_min` of a user-defined floating type is the least positive number (`C09_user_defined_float_fails`).
14. `immediate_mean` of no samples is a finite number (`C04_immediate_mean_empty_finite`), hence `error_of<mean>` too (`C11_no_samples_immediate_finite`).
15. During construction no other accumulator can be accessed, contrary to the documentation (`C49_*`); `with_cached_result` copies an uninitialised cache (`C50_construct_ub`).
16. Covariance of two vectors is undefined from the second sample on unless the dimensions agree (`C08_matrix_fails`).
17. Immediate weighted mean is NaN for ever after a leading zero weight (`C32_zero_prefix_differs`).
18. Vector samples without an initial vector violate an assertion (`C53_default_fails`); the immediate mean of `std::vector` samples longer than the initial one silently drops components (`C53_size_immediate_fails`).
19. Variates of tied samples may be listed differently after an extraction (`C16_variate_ties_order_dependent`).
20. In `double`: the mean of three times 0.1 is not 0.1 (`C60_constant_fails`) and their lazy variance is negative (`C61_lazy_fails`); a rolling sum over samples 0, 0 is -1 after a large sample has left the window (`C62_drift`); the greatest cached sample may be in the last bin instead of the overflow bin (`C64_max_not_in_overflow`).
21. A feature installed as a declared dependency may be used by nobody: in `features<droppable<immediate_mean>, droppable<covariance<..>>>` the sum is there, is never updated, and `sum(acc)` is 0 (`C65_unused_is_stale`).
22. Integral samples are accumulated in their own type although the result is a `double`: the lazy mean of `int` samples 2147483647, 1 is undefined and that of `unsigned` 4294967295, 1 is 0, the immediate means being right (`C66_means_differ`); `moment<2>` of one `unsigned short` 65535 is undefined (`C66_moment_fails`); the immediate rolling mean of `int` overflows in the difference of two samples (`C66_rolling_mean_fails`); `int` samples with `unsigned` weights turn -1 into 4294967295 (`C66_mixed_weights_fails`).
23. In `double` the rank of a tail quantile may be one too high: `1 - 0.7` exceeds 0.3, so the 0.7 quantile of ten samples from the right tail is the fourth greatest, and the 0.07 quantile of a hundred is the eighth least (`C67_off_by_one`).
24. `droppable<tail_variate<..>>` and `droppable<tail_weights<..>>` are never assigned by the tail, which looks for the undecorated feature: with weights `droppable<tail_quantile<..>>` never yields a number (`C68_droppable_weights`, `C68_fails`).
25. Even with sensible arguments an extraction from a set may be undefined or endless: medians read from histograms, quadratic interpolation between two probabilities, weighted means of tail covariates (`C70_density_median_ub`, `C70_quadratic_ub`, `C70_variate_means_diverge`).
26. In a set, too, extracting changes later results of the histogram medians, of peaks-over-threshold fits, and of what is kept along with tied samples (`C71_density_median_differs`, `C71_pot_differs`, `C71_ties_differ`).
27. For complex samples the variance averages squares, not squared absolute values: it may be negative, imaginary, or zero for different samples (`C72_variance_fails`). The unit of complex weights is `1 + i` (`C72_one_fails`).
28. Weighted tail means depend on the order in which equal samples with different weights arrive, whatever heap implementation is used (`C10_wtail_mean_ties`); the immediate weighted mean depends on the order when a partial sum of weights vanishes (`C10_weighted_zero_prefix`).
29. Coherent tail means, even where the documented formula is computed, are neither monotone in the probability nor equivariant under shifts of the samples (`C74_coherent_fails`, `C54_coherent_fails`). Quadratically interpolated quantiles are not monotone and may leave the data on a reachable state (`C74_quadratic_fails`); estimates of separate `p_square_quantile` accumulators cross (`C74_psq_crossing`).
30. A first sample of weight zero makes the immediate weighted mean, and the recursive variance based on it, NaN for ever (`C75_first_fails`); weightless samples take places in the caches of histograms and tails and count for P-square estimates and extremes (`C75_density_cache`, `C75_tail_cache_fails`, `C75_psq_fails`).
31. `sum_kahan` turns an infinite sum into NaN at the next sample (`C76_kahan`); `variance` of a single NaN is 0, and of an infinity and a number it is infinite or NaN depending on the order (`C76_variance`, `C76_order_fails`). `min` of samples that are all `+∞` is `numeric_limits::max()` (`C76_min`). The immediate rolling mean skips a NaN and is a wrong finite number for ever (`C76_rolling_skip`, `C76_rolling_immediate_fails`), the other rolling statistics are NaN for ever (`C76_rolling`). Both means overflow although the mean is representable (`C76_overflow_mean_fails`).
32. `immediate_weighted_mean` loses every sample before one heavy weight: `w_sum - weight` cancels (`C78_immediate_relative_fails`: samples 1 and 0 with weights 1 and 2⁵⁴ give 0, `weighted_mean` is right). Its error is small only relative to the largest sample (`C78_immediate_mean`). `lazy_variance` of `10⁸` and `10⁸+1` is 0 (`C79_cancellation_fails`).
33. The ranges returned by `density`, `p_square_cumulative_distribution`, `extended_p_square` and `tail` look into the accumulator (C80): a later extraction or push changes what a range obtained earlier shows (`C80_overwritten`, `C80_extended_changes`, `C80_tail_changes`). `tail_impl` has a copy constructor that reserves but no such assignment, so after assigning a set with a larger cache a push may reallocate `indices` (not modelled).
34. Weights are not multiplicities everywhere (C81): the weighted tail mean counts the boundary sample with its whole weight (`C81_tail_mean_overshoots`), `weighted_tail_quantile` accepts a tail as long as the cache and `tail_quantile` does not (`C81_full_level`), and the weighted P² estimators move a marker by at most one step per sample and in units of weight 1, so neither copies nor a common factor of the weights are equivalent (`C81_p_square`, `C81_p_square_scale`).
35. With external weights the immediate weighted mean and the recursive weighted variance and covariance ask for the sum of the weights at every push: the push needs `weights = ...`, and the weight must have been pushed to the other set just before. In the order of `test/external_weights.cpp` (sample first, with a lazy feature) the results are not numbers, with all the weights first they are wrong numbers (`C83_wrong_order`).
36. `weighted_covariance` of two vectors has the same transposition as `covariance`: the update multiplies covariate by sample, the constructor and the documentation sample by covariate. With different dimensions the second sample adds matrices of different shapes (`C84_matrix`, `C84_shape`).
37. With weights, the P-square marker positions are rounded sums of weights and can coincide once the sum absorbs a weight (`C85_positions_coincide`). The heights nevertheless stay ordered, because a marker is moved only when the distance to its neighbour exceeds 1 (`C85_weighted_heights`, `C85_extended`, `C85_weighted_cumul`).
38. `weighted_density` keeps each sample in exactly one bin under rounding, but a bin can lose a small weight entirely (`C86_weight_lost`).
39. An infinite cached sample, or an overflowing range of finite ones, makes the histograms useless without any sign of it: one bin with NaN edge (`C87_pos_inf`, `C87_infinite_range`) or everything in the overflow bin (`C87_neg_inf`). Nothing is undefined (`C87_density`, `C87_weighted_density`).
40. One infinite sample among eight can make the P-square median infinite, and four samples later the search among the heights is undefined (`C88_inf_fails`, `C88_inf_undefined`); an overflowing difference of finite samples does the same (`C88_overflow_fails`). NaN samples after the initial ones only advance the desired positions: estimates stay within the numbers (`C88_quantile`, `C88_extended` and the weighted ones) but drift upwards (`C88_nan_drift`).
41. If the samples that fill the tail cache are NaN the tail is NaN for ever (`C89_nan_frozen`); mixed with two different numbers they make the heap algorithms undefined (`C89_nan_undefined`). Later NaN samples are ignored by the cache but counted by `count`, so the left and the right `tail_quantile` disagree (`C89_sides_disagree`).
42. When the sum of the weights overflows, the weighted mean is 0 whatever the samples, and the immediate one NaN (`C90_overflow_fails`); an infinite sample of weight 0 makes it NaN (`C90_zero_weight_fails`).
43. `non_coherent_tail_mean` adds integral samples in their own type: two samples near the largest `int` make it undefined while `tail_quantile` is right (`C91_tail_mean_fails`). The lazy variances square in the sample type (`C91_variances_differ`, `C91_rolling_variances_differ`). With unsigned weights the weighted tail mean of negative samples is a large positive number (`C91_weighted_tail_mixed`).
44. The rolling means keep the rounding errors of samples that have left the window: after 10^16, 1, 0, 0, 0 in `double` a window of two zeros has mean -1/2, lazily and immediately (`C92_drift`). Nothing ever resets the sum.
45. `weighted_variance` and `weighted_covariance` divide by `sum_of_weights - weight`. In floating point this difference is 0 when the weight dwarfs the sum of those before it (1, then 2^54 in `double`), and the result is infinite or NaN from then on (`C94_dominant_weight_fails`).
46. Rolling variances never recover from an outlier. In `double` with a window of two, after `10^16` and then `1, 3, 1, 3, ...` the immediate variance of every window is 0 instead of 2: `prevent_underflow` replaced the negative remainder by 0 and the sum of squares is only ever updated by differences (`C95_immediate_for_ever`). The lazy variance of a window of zeros can be negative (`C95_lazy_drift`).
47. `kurtosis` is computed from raw moments about zero. In `double` the kurtosis of `10000, ..., 10003` is -3, below the least value -2 any sample can have, and that of `100000, ..., 100003` is about 83883; the exact value of both is -1.36 (`C96_offset_fails`).
48. `skewness` and `error_of<mean>` take the square root of a variance computed as a difference of moments. In `double` it is -2 for `100000001, 100000002, 100000002` (exact: 2/9), and both are NaN (`C97_offset_fails`).
49. `weighted_tail_mean` compares two rounded sums to decide which samples it averages. In `double`, for the samples 1, 2, 9 with the weights 0.1, 0.3, 0.1 and the level 0.8, it averages two of them, and three in exact arithmetic on the same numbers: 1.75 instead of 3.2 (`C98_selection_differs`).
50. A change of units is not exact in general: in `double` ten times the sum of 0.1 and 0.2 is not the sum of ten times these numbers (`C99_ten_fails`). By powers of two it is, for every statistic of C99.
51. The coherent tail means of the two tails are not mirror images: `tail_mean.hpp:83-88` subtracts `n/count` from the level of the right tail only. The samples 4, 3, 2, 1 have the coherent right mean 3.5 at p = 0.5, the negated samples the coherent left mean -4.25 (`C100_coherent_mirror_fails`).
52. `immediate_mean` loses the exactness that whole-number samples give to `mean`: for 9, 9, 1, 3, 3, 1, 3, 1 in `double` it returns 3.7500000000000004, `mean` returns 3.75 (`C101_immediate_mean_fails`).
53. The variance of three equal samples 0.1 in `double` is not zero with either mean, and the lazy rolling mean of a constant signal 0.1 is not 0.1 (`C102_tenth_fails`). With `immediate_rolling_mean` both are exact for every constant (`C102_rolling_immediate`).
54. Raising a sample can lower `p_square_quantile` even in exact arithmetic (`C103_p_square_fails`), and `rolling_sum` and `sum_kahan` in `double` (`C103_rolling_fails`, `C103_kahan_fails`).
55. A sample equal to the current estimate can move `p_square_quantile`, even in exact arithmetic (`C104_p_square_fails`); in `double` it can move either mean (`C104_mean_fails`).
56. The markers of `weighted_p_square_cumulative_distribution` aim one cell too low (`i - 1` for markers numbered from 0): for 1, …, 20 with unit weights and four cells it reports that a half of the samples lie below 14.6 (`C40_aim_fails`); with three or more cells and positive weights the second point never rises above the second smallest of the first samples (`C40_second_point`). Found because a model without the offset in the desired positions survived: no earlier theorem depended on them.

Seen in the code but outside the model: `external<>` does not forward named parameters; `error_of<F>` does not
compile in a set with weights; several weighted accumulators have no
`serialize`, that of `tail_variate` is private.

## How the theorems were tested

`Props/RepoTests.lean` evaluates the model on the literal inputs of `/repo/test/*.cpp` and compares with the values these tests expect. This tests the fidelity of the model; it is no proof of a property and no theorem depends on it. Tests with random inputs are not covered by it.

`seeded/LOG.jsonl` records wrong programs: one definition of the model is
edited as a plausible bug, the development is rebuilt in a scratch copy, and the
theorems that fail to build are listed.  When a wrong program went unnoticed a
theorem was added or tightened (named in the entry); entries without a failing
theorem are edits that turn out to be equivalent, with the reason.
