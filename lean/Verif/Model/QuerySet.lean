import Verif.Model.FullSet

/-!
# Extraction changes the set

`extract_result` (`framework/accumulator_set.hpp:398-422`) is `const`, but many `result()` members are not pure: they sort
the tail, rebuild a histogram, update the members of a median or of a fit, all of them `mutable`, and extract other
features, whose `result()` does the same.  This is extraction from a set of `Model/FullSet` with all these effects, and
histories in which pushes and extractions alternate.  Paths are relative to
`/repo/include/boost/accumulators/statistics/`.

Simplifications: what an accumulator extracts several times in a row is extracted once (the second extraction finds
everything settled).  What a `result()` would extract only on some paths (`rolling_moment<2>` after the test for two
samples, `non_coherent_tail_mean` for relative tail variate means, `tail` for the message of an exception) is extracted on
all of them.  `tail_means_` (`tail_variate_means.hpp:158`) is overwritten by every extraction and is not part of the state.
-/

namespace Acc

/-- Is this undefined behaviour, or an endless loop? -/
def Out.broken {K : Type} : Out K → Bool
  | .num .ub | .list .ub | .vecs .ub | .hist .ub | .fit .ub => true
  | .num .diverges | .list .diverges | .vecs .diverges | .hist .diverges | .fit .diverges => true
  | _ => false

namespace Cell

variable {K : Type} [Field K] [LinearOrder K] [FloorRing K]

/-- The features whose `result()` is called by `result()` of the accumulator of feature `f` with members `c`, in this
order; those without effect (`count`, `sum_of_weights`, the window) are left out. -/
def reads : StdF → Cell K → List StdF
  -- rolling_mean.hpp:41-45, rolling_variance.hpp:57-64
  | .lazyRollingMean, _ => [.rollingSum]
  | .lazyRollingVariance, _ => [.rollingMean, .rollingMoment 2]
  -- extended_p_square_quantile.hpp:84-188
  | .extendedPSquareQuantile, _ | .weightedExtendedPSquareQuantile, _ | .extendedPSquareQuantileQuadratic, _
  | .weightedExtendedPSquareQuantileQuadratic, _ => [.extendedPSquare]
  -- median.hpp:46-50, 89-110, 158-176; weighted_median.hpp:47-51, 86-107, 155-173
  | .median, _ => [.pSquareQuantileForMedian]
  | .weightedMedian, _ => [.weightedPSquareQuantileForMedian]
  | .withDensityMedian, .densMedian _ d _ | .withDensityWeightedMedian, .densMedian _ d _ => if d then [.density] else []
  | .withCumulMedian, .cumulMedian d _ | .withCumulWeightedMedian, .cumulMedian d _ => if d then [.pSquareCumul] else []
  -- tail_variate.hpp:54-71
  | .tailVariate _ _, _ | .tailWeights _, _ => [.abstractTail]
  -- tail_quantile.hpp:68-100, tail_mean.hpp:71-90, 130-165, tail_variate_means.hpp:90-147
  | .tailQuantile _, _ | .nonCoherentTailMean _, _ => [.abstractTail]
  | .coherentTailMean _, _ => [.abstractNonCoherentTailMean, .quantile]
  | .absoluteTailVariateMeans _ _, _ | .relativeTailVariateMeans _ _, _ =>
    [.abstractTailVariate, .abstractTail, .abstractNonCoherentTailMean]
  -- weighted_tail_quantile.hpp:75-110, weighted_tail_mean.hpp:91-132, weighted_tail_variate_means.hpp:117-180
  | .weightedTailQuantile _, _ | .nonCoherentWeightedTailMean _, _ => [.abstractTailWeights, .abstractTail]
  | .absoluteWeightedTailVariateMeans _ _, _ | .relativeWeightedTailVariateMeans _ _, _ =>
    [.abstractTailWeights, .abstractTailVariate, .abstractNonCoherentTailMean]
  -- peaks_over_threshold.hpp:244-307, weighted_peaks_over_threshold.hpp:171-233
  | .peaksOverThresholdProb _, .potProb _ _ _ _ d => if d then [.abstractTail] else []
  | .weightedPeaksOverThresholdProb _, .potProb _ _ _ _ d => if d then [.abstractTailWeights, .abstractTail] else []
  -- pot_quantile.hpp:61-82, pot_tail_mean.hpp:64-92
  | .potQuantile _, _ | .potQuantileProb _, _ | .weightedPotQuantile _, _ | .weightedPotQuantileProb _, _ =>
    [.abstractPeaksOverThreshold]
  | .potTailMean _, _ | .potTailMeanProb _, _ | .weightedPotTailMean _, _ | .weightedPotTailMeanProb _, _ =>
    [.abstractPeaksOverThreshold, .quantile]
  | _, _ => []

/-- The members of the accumulator of feature `f` after its `result()`, which sees the set `env` and gets `rd` from the
features it extracts.  (After undefined behaviour nothing is said about the set, see `Cell.queryStep`.) -/
def settle (cfg : Cfg K) (env : Env StdF (Cell K)) (rd : StdF → Out K) (f : StdF) (c : Cell K) : Cell K :=
  let n := countOf env
  match f, c with
  -- density.hpp:169-187, weighted_density.hpp:155-174
  | .density, .dens s =>
    match s.bind fun s => densityQuery { s with cnt := n } with
    | .val r => .dens (.val r.1)
    | _ => c
  | .weightedDensity, .wdens s =>
    match (statOf cfg env .sumOfWeights).bind fun w => s.bind fun s => wdensityQuery { s with wsum := w } with
    | .val r => .wdens (.val r.1)
    | _ => c
  -- p_square_cumul_dist.hpp:188-208, weighted_p_square_cumul_dist.hpp:204-222
  | .pSquareCumul, .cumul (.val s) =>
    if s.dirty then
      match psqHist s.m.heights s.m.pos (n : K) with
      | .val h => .cumul (.val { s with hist := h, dirty := false })
      | _ => c
    else c
  | .weightedPSquareCumul, .wcumul (.val s) =>
    if s.dirty then
      match (statOf cfg env .sumOfWeights).bind fun w => psqHist s.m.heights s.m.pos w with
      | .val h => .wcumul (.val { s with hist := h, dirty := false })
      | _ => c
    else c
  -- median.hpp:89-110, 158-176; weighted_median.hpp:86-107, 155-173
  | .withDensityMedian, .densMedian s d _ | .withDensityWeightedMedian, .densMedian s d _ =>
    if d then
      match (rd .density).asHist.bind fun h => densityMedianBody (n : K) s h with
      | .val r => .densMedian r.1 false r.2
      | _ => c
    else c
  | .withCumulMedian, .cumulMedian d _ | .withCumulWeightedMedian, .cumulMedian d _ =>
    if d then
      match (rd .pSquareCumul).asHist.bind cumulMedianBody with
      | .val m => .cumulMedian false m
      | _ => c
    else c
  -- tail.hpp:205-222
  | .tail side, .tail (.val s) =>
    let s' := tailSort cfg.heap side (s.join ([] : List Unit))
    .tail (.val ⟨s'.isSorted, s'.indices, s'.samples⟩)
  -- peaks_over_threshold.hpp:158-182, 244-307, weighted_peaks_over_threshold.hpp:88-110, 171-233; if an exception leaves
  -- the function, `is_dirty_` has been cleared and, with weights, `mu_` and `sigma2_` have been added to
  | .peaksOverThreshold side, .pot s => .pot (potQuery cfg.pw side { s with cnt := n }).1
  | .weightedPeaksOverThreshold side, .wpot s =>
    match statOf cfg env .sumOfWeights with
    | .val w => .wpot (wpotQuery cfg.pw side { s with total := w }).1
    | _ => c
  | .peaksOverThresholdProb side, .potProb mu sigma2 tp fit d =>
    match (tailOf env).bind fun t =>
      potProbQuery cfg.pw cfg.heap side cfg.hasNaN ⟨n, t.join ([] : List Unit), mu, sigma2, tp, fit, d⟩ with
    | .val r => .potProb r.1.mu r.1.sigma2 r.1.tp r.1.fit r.1.dirty
    | .thrown => .potProb mu sigma2 tp fit false
    | _ => c
  | .weightedPeaksOverThresholdProb side, .potProb mu sigma2 tp fit d =>
    match statOf cfg env .sumOfWeights, tailOf env, env .abstractTailWeights with
    | .val w, .val t, some (_, .weights (.val l)) =>
      match wpotProbQuery cfg.pw cfg.heap side cfg.hasNaN ⟨w, t.join l, mu, sigma2, tp, fit, d⟩ with
      | .val r => .potProb r.1.mu r.1.sigma2 r.1.tp r.1.fit r.1.dirty
      | .thrown =>
        match tailResult cfg.heap side (t.join l), tailVariateResult cfg.heap side (t.join l) with
        | .val xs, .val ws =>
          let r := wpotLoop (w * tailLevel side tp) 0 0 mu sigma2 (xs.zip ws)
          .potProb r.1.2.2.1 r.1.2.2.2 tp fit false
        | _, _ => c
      | _ => c
    | _, _, _ => c
  | _, _ => c

/-- Several extractions, one after the other; the results by name. -/
def readAll (ex : StdF → Env StdF (Cell K) → Env StdF (Cell K) × Out K) :
    List StdF → Env StdF (Cell K) → Env StdF (Cell K) × (StdF → Out K)
  | [], env => (env, fun _ => .missing)
  | k :: ks, env =>
    let r := ex k env
    let r' := readAll ex ks r.1
    (r'.1, fun k' => if k' = k then r.2 else r'.2 k')

/-- Extract a feature: what the accumulator needs is extracted first, then its own members are brought up to date.  The
first argument bounds the recursion. -/
def extractN (cfg : Cfg K) (p : K) : ℕ → StdF → Env StdF (Cell K) → Env StdF (Cell K) × Out K
  | 0, _, env => (env, .missing)
  | m + 1, k, env =>
    match env k with
    | some (f, c) =>
      let r := readAll (extractN cfg p m) (reads f c) env
      (fun k' => if k' = k then some (f, settle cfg r.1 r.2 f c) else r.1 k', result cfg r.1 p r.2 f c)
    | Option.none => (env, .missing)

/-- `extract_result<Feature>(acc, quantile_probability = p)` for the abstract feature `k`: the set afterwards, and the
result. -/
def extract (cfg : Cfg K) (p : K) (k : StdF) (env : Env StdF (Cell K)) : Env StdF (Cell K) × Out K :=
  extractN cfg p (StdF.rank k + 1) k env

end Cell

/-- What a program does with a set. -/
inductive QueryOp (K : Type) where
  | push (a : FArgs K)
  /-- `extract_result<k>(acc, quantile_probability = p)` -/
  | extract (k : StdF) (p : K)

/-- The pushes of a history. -/
def QueryOp.pushes {K : Type} (ops : List (QueryOp K)) : List (FArgs K) :=
  ops.filterMap fun
    | .push a => some a
    | .extract _ _ => Option.none

namespace Cell

variable {K : Type} [Field K] [LinearOrder K] [FloorRing K]

/-- One operation on the set of the accumulators `S` (with reference counts `refs`); an exception is caught by the
program. -/
def queryStep (cfg : Cfg K) (S : List (Tag StdF)) (refs : StdF → ℕ) (env : Env StdF (Cell K)) :
    QueryOp K → Res (Env StdF (Cell K))
  | .push a => .val (stdLib.pushX (fullImpl cfg) S refs S env a)
  | .extract k p =>
    let r := extract cfg p k env
    if r.2.broken then .ub else .val r.1

/-- A history of operations. -/
def queryRun (cfg : Cfg K) (S : List (Tag StdF)) (refs : StdF → ℕ) (env : Env StdF (Cell K)) (ops : List (QueryOp K)) :
    Res (Env StdF (Cell K)) :=
  ops.foldlM (queryStep cfg S refs) env

end Cell

/-- A set of features after pushes and extractions. -/
def queried {K : Type} [Field K] [LinearOrder K] [FloorRing K] (cfg : Cfg K) (w : Bool)
    (ord : List (Tag StdF) → List (Tag StdF)) (req : List (Tag StdF)) (ops : List (QueryOp K)) :
    Res (Env StdF (Cell K)) :=
  let S := stdLib.accumulators w ord req
  let s := stdLib.construct (fullImpl cfg).toImpl S req
  Cell.queryRun cfg S s.refs s.env ops

end Acc
