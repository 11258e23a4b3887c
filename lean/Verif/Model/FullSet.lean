import Verif.Model.StatSet
import Verif.Model.XSet
import Verif.Model.Rolling
import Verif.Model.Median
import Verif.Model.Pot

/-!
# All statistics of the library as accumulators of a set

The step functions of the other modules used as an `XImpl`: every accumulator fetches what it needs from the set, through
whichever accumulator provides the feature (`framework/extractor.hpp:85-91`, `framework/accumulator_set.hpp:398-422`), and
the tail writes into the tail variates.  Paths below are relative to
`/repo/include/boost/accumulators/statistics/`.

Simplifications: those of `Model/StatSet` and of the modules of the single accumulators.  Members that only remember what
an accumulator read from others (`cnt`, `mn`, `mx`, `wsum`, `total` in the states of `Model/Density`, `Model/PSquare`,
`Model/Pot`) are overwritten with what it reads now.  Extraction is a function of the state: after pushes alone nothing is
cached yet, and the members that `result()` changes are read by nobody else (the effect of repeated extraction is the
subject of C16, C28 and C30).
-/

namespace Acc

/-- The argument pack of a push: sample, weight, scalar covariates, and vector covariates for the tail variates. -/
structure FArgs (K : Type) extends Args K where
  vec : ℕ → List K

/-- The members of `tail_impl` (`tail.hpp:281-284`). -/
structure TailOwn (α : Type) where
  isSorted : Bool
  indices : List ℕ
  samples : List α

/-- What was passed to the constructor of the set, and what the platform provides. -/
structure Cfg (K : Type) where
  /-- limits of the sample type -/
  lo : K
  hi : K
  /-- results with a square root, see `Model/StatSet` -/
  irr : StdF → ℕ → (StdF → Res K) → Res K
  /-- `std::pow` -/
  pw : K → K → Res K
  /-- has the result type a quiet NaN? -/
  hasNaN : Bool
  /-- the heap functions of the standard library -/
  heap : HeapImpl ℕ
  /-- `tag::rolling_window::window_size` -/
  window : ℕ
  /-- `tag::density::cache_size`, `tag::density::num_bins` -/
  densCache : ℕ
  numBins : ℕ
  /-- `tag::p_square_cumulative_distribution::num_cells` -/
  cells : ℕ
  /-- `quantile_probability` -/
  prob : K
  /-- `extended_p_square_probabilities` -/
  probs : List K
  /-- `tag::tail<Side>::cache_size` -/
  tailCache : ℕ
  /-- `tag::peaks_over_threshold<Side>::threshold_value`, `tag::peaks_over_threshold_prob<Side>::threshold_probability` -/
  potThr : K
  potProb : K

/-- The features of `Model/StatSet`. -/
def StdF.elementary : StdF → Bool
  | count | min | max | sum | sumKahan | weightedSum | weightedSumKahan | sumOfWeights | sumOfWeightsKahan
  | sumOfVariates _ | sumOfVariatesKahan _ | weightedSumOfVariates _ | weightedSumOfVariatesKahan _
  | mean | immediateMean | weightedMean | immediateWeightedMean | meanOfWeights | immediateMeanOfWeights
  | meanOfVariates _ | immediateMeanOfVariates _ | weightedMeanOfVariates _ | immediateWeightedMeanOfVariates _
  | moment _ | weightedMoment _ | variance | lazyVariance | weightedVariance | lazyWeightedVariance
  | skewness | weightedSkewness | kurtosis | weightedKurtosis | covariance _ | weightedCovariance _
  | errorOfMean | errorOfImmediateMean => true
  | _ => false

/-- State of one accumulator. -/
inductive Cell (K : Type) where
  /-- no members -/
  | none
  /-- the elementary statistics -/
  | stat (c : StatCell K)
  | window (b : Ring K)
  | roll (r : Res K)
  | rollVar (v : RollVar K)
  | dens (s : Res (DensitySt K))
  | wdens (s : Res (WDensitySt K))
  | psq (s : Res (PsqSt K))
  | wpsq (s : Res (WPsqSt K))
  | cumul (s : Res (PsqCumulSt K))
  | wcumul (s : Res (WPsqCumulSt K))
  /-- `sum`, `is_dirty`, `median` of `with_density_median` (`median.hpp:123-125`,
  `weighted_median.hpp:119-121`) -/
  | densMedian (sum : K) (dirty : Bool) (median : K)
  /-- `is_dirty`, `median` of `with_p_square_cumulative_distribution_median` (`median.hpp:188-189`,
  `weighted_median.hpp:184-185`) -/
  | cumulMedian (dirty : Bool) (median : K)
  | tail (s : Res (TailOwn K))
  /-- `variates` of a `tail_variate` of vector type -/
  | variates (l : Res (List (List K)))
  /-- `variates` of `tail_weights` -/
  | weights (l : Res (List K))
  | pot (s : PotSt K)
  | wpot (s : WPotSt K)
  /-- `mu_`, `sigma2_`, `threshold_probability_`, `fit_parameters_`, `is_dirty_` of `peaks_over_threshold_prob`
  (`peaks_over_threshold.hpp:324-328`, `weighted_peaks_over_threshold.hpp:237-241`) -/
  | potProb (mu sigma2 : Res K) (tp : K) (fit : PotFit K) (dirty : Bool)

/-- What an extractor returns. -/
inductive Out (K : Type) where
  | num (r : Res K)
  | list (r : Res (List K))
  | vecs (r : Res (List (List K)))
  | hist (r : Res (List (K × Res K)))
  | fit (r : Res (PotFit K))
  /-- the feature is not in the set (does not compile) -/
  | missing

namespace Out
variable {K : Type}

def asNum : Out K → Res K
  | num r => r
  | _ => .ub
def asList : Out K → Res (List K)
  | list r => r
  | _ => .ub
def asVecs : Out K → Res (List (List K))
  | vecs r => r
  | _ => .ub
def asHist : Out K → Res (List (K × Res K))
  | hist r => r
  | _ => .ub
def asFit : Out K → Res (PotFit K)
  | fit r => r
  | _ => .ub

end Out

namespace TailOwn

variable {α : Type} [LinearOrder α]

/-- The members of a tail and what is cached with the samples, as one state of `Model/Tail`. -/
def join {V : Type} (s : TailOwn α) (l : List V) : TailSt α V := ⟨s.isSorted, s.indices, s.samples, l⟩

/-- `tail.hpp:161-168`. -/
def init (k : ℕ) (x0 : α) : TailOwn α := ⟨false, [], List.replicate k x0⟩

/-- `tail.hpp:237-246` (`assign`) without the visit of the tail variates; returns also the slot. -/
def assign (H : HeapImpl ℕ) (side : Side) (s : TailOwn α) (x : α) (index : ℕ) : Res (TailOwn α × Option ℕ) :=
  if index < s.samples.length then
    let samples := s.samples.set index x
    .val (⟨false, H.push (tailCmp side samples) s.indices, samples⟩, some index)
  else .ub

/-- `tail.hpp:190-203` (`operator()`): the new members, and the slot to which something was assigned, if any. -/
def push (H : HeapImpl ℕ) (side : Side) (s : TailOwn α) (x : α) : Res (TailOwn α × Option ℕ) :=
  if s.indices.length < s.samples.length then
    assign H side { s with indices := s.indices ++ [s.indices.length] } x s.indices.length
  else
    match s.indices with
    | [] => .ub
    | i0 :: _ =>
      match s.samples[i0]? with
      | Option.none => .ub
      | some y =>
        if tailPred side x y then
          let idx := H.pop (tailCmp side s.samples) s.indices
          match idx.getLast? with
          | Option.none => .ub
          | some i => assign H side { s with indices := idx } x i
        else .val (s, Option.none)

/-- The slot assigned by a push. -/
def slot (H : HeapImpl ℕ) (side : Side) (r : Res (TailOwn α)) (x : α) : Res (Option ℕ) :=
  r.bind fun s => (push H side s x).bind fun q => .val q.2

/-- The members after a push. -/
def next (H : HeapImpl ℕ) (side : Side) (r : Res (TailOwn α)) (x : α) : Res (TailOwn α) :=
  r.bind fun s => (push H side s x).bind fun q => .val q.1

end TailOwn

/-- `tail_variate.hpp:48-52` (`assign`), if the tail assigned to a slot. -/
def assignSlot {V : Type} (slot : Res (Option ℕ)) (v : V) (l : Res (List V)) : Res (List V) :=
  slot.bind fun i =>
    match i with
    | some i => l.bind fun l => setAt l i v
    | Option.none => l

namespace Cell

variable {K : Type} [Field K] [LinearOrder K]

/-- The elementary statistics of the set. -/
def statEnv (env : Env StdF (Cell K)) : Env StdF (StatCell K) := fun k =>
  match env k with
  | some (f, .stat c) => some (f, c)
  | some (f, _) => some (f, .none)
  | Option.none => Option.none

/-- `count(args)`. -/
def countOf (env : Env StdF (Cell K)) : ℕ := StatCell.countOf (statEnv env)

/-- An elementary statistic. -/
def statOf (cfg : Cfg K) (env : Env StdF (Cell K)) (k : StdF) : Res K := StatCell.read cfg.irr (statEnv env) k

/-- `rolling_window_plus1(args)`, with the state of the circular buffer. -/
def windowOf (env : Env StdF (Cell K)) : Option (Ring K) :=
  match env .rollingWindowPlus1 with
  | some (_, .window b) => some b
  | _ => Option.none

/-- Use the window. -/
def withWindow (env : Env StdF (Cell K)) (g : Ring K → Res K) : Res K :=
  match windowOf env with
  | some b => g b
  | Option.none => .ub

/-- The members of the tail. -/
def tailOf (env : Env StdF (Cell K)) : Res (TailOwn K) :=
  match env .abstractTail with
  | some (_, .tail s) => s
  | _ => .ub

variable [FloorRing K]

/-- `result(args)` of the accumulator of feature `f`, from its own state and what it extracts from the set (`rd`);
`p` is the `quantile_probability` passed to the extractor. -/
def result (cfg : Cfg K) (env : Env StdF (Cell K)) (p : K) (rd : StdF → Out K) (f : StdF) (c : Cell K) : Out K :=
  let n := countOf env
  match f, c with
  -- the elementary statistics
  | f, .stat _ => .num (statOf cfg env (StdF.key f))
  -- rolling_window.hpp, rolling_count.hpp:38-42, rolling_sum.hpp, rolling_mean.hpp:41-45, 89-93, rolling_moment.hpp:55-59,
  -- rolling_variance.hpp:57-64, 138-144
  | .rollingWindowPlus1, .window b => .list (.val b.elems)
  | .rollingWindow, _ =>
    .list (match windowOf env with
      | some b => .val (windowResult b)
      | Option.none => .ub)
  | .rollingCount, _ => .num (withWindow env fun b => .val (rollingCount b : K))
  | .rollingSum, .roll r => .num r
  | .immediateRollingMean, .roll r | .rollingMean, .roll r => .num r
  | .lazyRollingMean, _ => .num (withWindow env fun b => lazyRollingMeanResult b (rd .rollingSum).asNum)
  | .rollingMoment _, .roll r => .num (withWindow env fun b => rollingMomentResult b r)
  | .lazyRollingVariance, _ =>
    .num (withWindow env fun b =>
      lazyRollingVarianceResult b (rd (.rollingMoment 2)).asNum (rd .rollingMean).asNum)
  | .rollingVariance, .rollVar v | .immediateRollingVariance, .rollVar v => .num (withWindow env fun b => v.result b)
  -- density.hpp:169-187, weighted_density.hpp:155-174
  | .density, .dens s => .hist (s.bind fun s => (densityQuery { s with cnt := n }).bind fun r => .val r.2)
  | .weightedDensity, .wdens s =>
    .hist ((statOf cfg env .sumOfWeights).bind fun w =>
      s.bind fun s => (wdensityQuery { s with wsum := w }).bind fun r => .val r.2)
  -- p_square_quantile.hpp:191-194, weighted_p_square_quantile.hpp:206-209
  | .pSquareQuantile, .psq s | .pSquareQuantileForMedian, .psq s => .num (s.bind fun s => getAt s.heights 2)
  | .weightedPSquareQuantile, .wpsq s | .weightedPSquareQuantileForMedian, .wpsq s =>
    .num (s.bind fun s => getAt s.heights 2)
  -- p_square_cumul_dist.hpp:188-208, weighted_p_square_cumul_dist.hpp:204-222
  | .pSquareCumul, .cumul s =>
    .hist (s.bind fun s => if s.dirty then psqHist s.m.heights s.m.pos (n : K) else .val s.hist)
  | .weightedPSquareCumul, .wcumul s =>
    .hist ((statOf cfg env .sumOfWeights).bind fun w =>
      s.bind fun s => if s.dirty then psqHist s.m.heights s.m.pos w else .val s.hist)
  -- extended_p_square.hpp:228-238, weighted_extended_p_square.hpp:243-253
  | .extendedPSquare, .psq s => .list (s.bind fun s => epsqResult cfg.probs.length s.heights)
  | .weightedExtendedPSquare, .wpsq s => .list (s.bind fun s => epsqResult cfg.probs.length s.heights)
  -- extended_p_square_quantile.hpp:84-188
  | .extendedPSquareQuantile, _ | .weightedExtendedPSquareQuantile, _ =>
    .num ((rd .extendedPSquare).asList.bind fun hs => epsqQuantile .linear cfg.hasNaN cfg.probs hs p)
  | .extendedPSquareQuantileQuadratic, _ | .weightedExtendedPSquareQuantileQuadratic, _ =>
    .num ((rd .extendedPSquare).asList.bind fun hs => epsqQuantile .quadratic cfg.hasNaN cfg.probs hs p)
  -- median.hpp:46-50, 89-110, 158-176; weighted_median.hpp:47-51, 86-107, 155-173
  | .median, _ => .num (rd .pSquareQuantileForMedian).asNum
  | .weightedMedian, _ => .num (rd .weightedPSquareQuantileForMedian).asNum
  | .withDensityMedian, .densMedian s d m | .withDensityWeightedMedian, .densMedian s d m =>
    .num (if d then (rd .density).asHist.bind fun h => (densityMedianBody (n : K) s h).bind fun r => .val r.2
      else .val m)
  | .withCumulMedian, .cumulMedian d m | .withCumulWeightedMedian, .cumulMedian d m =>
    .num (if d then (rd .pSquareCumul).asHist.bind cumulMedianBody else .val m)
  -- tail.hpp:205-222, tail_variate.hpp:54-71
  | .tail side, .tail s => .list (s.bind fun s => tailResult cfg.heap side (s.join ([] : List Unit)))
  | .tailVariate _ side, .variates l =>
    .vecs ((tailOf env).bind fun s => l.bind fun l => tailVariateResult cfg.heap side (s.join l))
  | .tailWeights side, .weights l =>
    .list ((tailOf env).bind fun s => l.bind fun l => tailVariateResult cfg.heap side (s.join l))
  -- tail_quantile.hpp:68-100, tail_mean.hpp:71-90, 130-165, tail_variate_means.hpp:90-147
  | .tailQuantile side, _ =>
    .num ((tailN side n p).bind fun m => (rd .abstractTail).asList.bind fun t => tailQuantileResult cfg.hasNaN m t)
  | .nonCoherentTailMean side, _ =>
    .num ((tailN side n p).bind fun m =>
      (rd .abstractTail).asList.bind fun t => nonCoherentTailMeanResult cfg.hasNaN m t)
  | .coherentTailMean side, _ =>
    .num ((tailN side n p).bind fun m =>
      coherentTailMeanOf side n m p (rd .abstractNonCoherentTailMean).asNum (rd .quantile).asNum)
  | .absoluteTailVariateMeans side _, _ =>
    .list ((tailN side n p).bind fun m => (rd .abstractTail).asList.bind fun t =>
      (rd .abstractTailVariate).asVecs.bind fun v =>
        tailVariateMeansOf false cfg.hasNaN m (rd .abstractNonCoherentTailMean).asNum t v)
  | .relativeTailVariateMeans side _, _ =>
    .list ((tailN side n p).bind fun m => (rd .abstractTail).asList.bind fun t =>
      (rd .abstractTailVariate).asVecs.bind fun v =>
        tailVariateMeansOf true cfg.hasNaN m (rd .abstractNonCoherentTailMean).asNum t v)
  -- weighted_tail_quantile.hpp:75-110, weighted_tail_mean.hpp:91-132, weighted_tail_variate_means.hpp:117-180
  | .weightedTailQuantile side, _ =>
    .num ((statOf cfg env .sumOfWeights).bind fun w => (rd .abstractTail).asList.bind fun t =>
      (rd .abstractTailWeights).asList.bind fun v =>
        wtailQuantileResult cfg.hasNaN (w * tailLevel side p) t v)
  | .nonCoherentWeightedTailMean side, _ =>
    .num ((statOf cfg env .sumOfWeights).bind fun w => (rd .abstractTail).asList.bind fun t =>
      (rd .abstractTailWeights).asList.bind fun v =>
        wtailMeanResult cfg.hasNaN (w * tailLevel side p) t v)
  | .absoluteWeightedTailVariateMeans side _, _ =>
    .list ((statOf cfg env .sumOfWeights).bind fun w => (rd .abstractTailVariate).asVecs.bind fun v =>
      (rd .abstractTailWeights).asList.bind fun u =>
        wtailVariateMeansOf false cfg.hasNaN (w * tailLevel side p) (rd .abstractNonCoherentTailMean).asNum v u)
  | .relativeWeightedTailVariateMeans side _, _ =>
    .list ((statOf cfg env .sumOfWeights).bind fun w => (rd .abstractTailVariate).asVecs.bind fun v =>
      (rd .abstractTailWeights).asList.bind fun u =>
        wtailVariateMeansOf true cfg.hasNaN (w * tailLevel side p) (rd .abstractNonCoherentTailMean).asNum v u)
  -- peaks_over_threshold.hpp:158-182, 244-307, weighted_peaks_over_threshold.hpp:88-110, 171-233
  | .peaksOverThreshold side, .pot s => .fit (.val (potQuery cfg.pw side { s with cnt := n }).2)
  | .weightedPeaksOverThreshold side, .wpot s =>
    .fit ((statOf cfg env .sumOfWeights).bind fun w => .val (wpotQuery cfg.pw side { s with total := w }).2)
  | .peaksOverThresholdProb side, .potProb mu sigma2 tp fit d =>
    .fit ((tailOf env).bind fun t =>
      (potProbQuery cfg.pw cfg.heap side cfg.hasNaN ⟨n, t.join ([] : List Unit), mu, sigma2, tp, fit, d⟩).bind
        fun r => .val r.2)
  | .weightedPeaksOverThresholdProb side, .potProb mu sigma2 tp fit d =>
    .fit ((statOf cfg env .sumOfWeights).bind fun w => (tailOf env).bind fun t =>
      (match env .abstractTailWeights with
        | some (_, .weights l) => l
        | _ => .ub).bind fun l =>
      (wpotProbQuery cfg.pw cfg.heap side cfg.hasNaN ⟨w, t.join l, mu, sigma2, tp, fit, d⟩).bind fun r => .val r.2)
  -- pot_quantile.hpp:61-82, pot_tail_mean.hpp:64-92
  | .potQuantile side, _ | .potQuantileProb side, _ | .weightedPotQuantile side, _ | .weightedPotQuantileProb side, _ =>
    .num ((rd .abstractPeaksOverThreshold).asFit.bind fun r => potQuantileValue cfg.pw side r p)
  | .potTailMean side, _ | .potTailMeanProb side, _ | .weightedPotTailMean side, _ | .weightedPotTailMeanProb side, _ =>
    .num ((rd .abstractPeaksOverThreshold).asFit.bind fun r =>
      potTailMeanValue cfg.pw side r.2.1 r.2.2 (rd .quantile).asNum p)
  | _, _ => .missing

/-- Extract a feature; the first argument bounds the recursion. -/
def readN (cfg : Cfg K) (env : Env StdF (Cell K)) (p : K) : ℕ → StdF → Out K
  | 0, _ => .missing
  | m + 1, k =>
    match env k with
    | some (f, c) => result cfg env p (readN cfg env p m) f c
    | Option.none => .missing

/-- `extract_result<Feature>(acc, quantile_probability = p)` for the abstract feature `k`. -/
def read (cfg : Cfg K) (env : Env StdF (Cell K)) (p : K) (k : StdF) : Out K := readN cfg env p (StdF.rank k + 1) k

/-- The state of the accumulator of a feature in a set constructed without an initial sample. -/
def start (cfg : Cfg K) : StdF → Cell K
  | .rollingWindowPlus1 => .window (windowInit cfg.window)
  | .rollingSum | .rollingMoment _ => .roll (.val 0)
  | .immediateRollingMean | .rollingMean => .roll (fdiv 0 1)
  | .rollingVariance | .immediateRollingVariance => .rollVar (RollVar.init 0)
  | .density => .dens (.val (densityInit cfg.lo cfg.hi cfg.densCache cfg.numBins 0))
  | .weightedDensity => .wdens (.val (wdensityInit cfg.lo cfg.hi cfg.densCache cfg.numBins 0))
  | .pSquareQuantile => .psq (.val (psqInit (psqQuantileIncr cfg.prob) (psqQuantileDes cfg.prob)))
  | .pSquareQuantileForMedian => .psq (.val (psqInit (psqQuantileIncr (1 / 2)) (psqQuantileDes (1 / 2))))
  | .weightedPSquareQuantile | .weightedPSquareQuantileForMedian => .wpsq (.val (wpsqInit 5))
  | .pSquareCumul => .cumul (.val (psqCumulSet cfg.cells).init)
  | .weightedPSquareCumul => .wcumul (.val (wpsqCumulSet cfg.cells).init)
  | .extendedPSquare => .psq (.val (psqInit (epsqIncr cfg.probs) (epsqDes cfg.probs)))
  | .weightedExtendedPSquare => .wpsq (.val (wpsqInit (2 * cfg.probs.length + 3)))
  | .withDensityMedian | .withDensityWeightedMedian => .densMedian 0 true 0
  | .withCumulMedian | .withCumulWeightedMedian => .cumulMedian true 0
  | .tail _ => .tail (.val (TailOwn.init cfg.tailCache 0))
  | .tailVariate _ _ => .variates (.val (List.replicate cfg.tailCache []))
  | .tailWeights _ => .weights (.val (List.replicate cfg.tailCache 0))
  | .peaksOverThreshold side => .pot (potInit side cfg.potThr)
  | .weightedPeaksOverThreshold side => .wpot (wpotInit side cfg.potThr)
  | .peaksOverThresholdProb _ | .weightedPeaksOverThresholdProb _ =>
    .potProb (.val 0) (.val 0) cfg.potProb (.val 0, .val 0, .val 0) true
  | f => if StdF.elementary f then .stat ((statImpl cfg.irr cfg.lo cfg.hi).init f) else .none

/-- `operator()` of the accumulator of feature `f`, whose own state is `own`; `env` is the set. -/
def step (cfg : Cfg K) (env : Env StdF (Cell K)) (a : FArgs K) (f : StdF) (own : Option (StdF × Cell K)) : Cell K :=
  let n := countOf env
  match f, own with
  -- rolling_window.hpp:107-111, rolling_sum.hpp:38-46, rolling_moment.hpp:45-53, rolling_mean.hpp:69-87,
  -- rolling_variance.hpp:121-136
  | .rollingWindowPlus1, some (_, .window b) => .window (windowPush b a.x)
  | .rollingSum, some (_, .roll r) => .roll (withWindow env fun b => rollingSumStep b r a.x)
  | .rollingMoment m, some (_, .roll r) => .roll (withWindow env fun b => rollingMomentStep m b r a.x)
  | .immediateRollingMean, some (_, .roll r) | .rollingMean, some (_, .roll r) =>
    .roll (withWindow env fun b => immRollingMeanStep b r a.x)
  | .rollingVariance, some (_, .rollVar v) | .immediateRollingVariance, some (_, .rollVar v) =>
    match windowOf env with
    | some b => .rollVar (v.step b (read cfg env 0 .rollingMean).asNum a.x)
    | Option.none => .none
  -- density.hpp:90-164, weighted_density.hpp:79-153; `cache[cnt - 1]` is undefined if nothing has been counted
  | .density, some (_, .dens s) =>
    .dens (if n = 0 then .ub else
      (statOf cfg env .min).bind fun mn => (statOf cfg env .max).bind fun mx =>
        s.bind fun s => densityStep n mn mx s a.x)
  | .weightedDensity, some (_, .wdens s) =>
    .wdens (if n = 0 then .ub else
      (statOf cfg env .min).bind fun mn => (statOf cfg env .max).bind fun mx =>
        (statOf cfg env .sumOfWeights).bind fun w => s.bind fun s => wdensityStep n w mn mx s (a.x, a.w))
  -- p_square_quantile.hpp:91-189, p_square_cumul_dist.hpp:86-186, extended_p_square.hpp:125-226 and the weighted versions
  | .pSquareQuantile, some (_, .psq s) =>
    .psq (if n = 0 then .ub else s.bind fun s => psqStep (psqQuantileIncr cfg.prob) n s a.x)
  | .pSquareQuantileForMedian, some (_, .psq s) =>
    .psq (if n = 0 then .ub else s.bind fun s => psqStep (psqQuantileIncr (1 / 2)) n s a.x)
  | .extendedPSquare, some (_, .psq s) =>
    .psq (if n = 0 then .ub else s.bind fun s => psqStep (epsqIncr cfg.probs) n s a.x)
  | .pSquareCumul, some (_, .cumul s) =>
    .cumul (if n = 0 then .ub else
      s.bind fun s => (psqStep (psqCumulIncr cfg.cells) n s.m a.x).bind fun m => .val { s with m := m, dirty := true })
  | .weightedPSquareQuantile, some (_, .wpsq s) =>
    .wpsq (if n = 0 then .ub else (statOf cfg env .sumOfWeights).bind fun w =>
      s.bind fun s => wpsqStep 5 5 (fun n0 W => .val (wpsqQuantileDes cfg.prob n0 W)) n w s (a.x, a.w))
  | .weightedPSquareQuantileForMedian, some (_, .wpsq s) =>
    .wpsq (if n = 0 then .ub else (statOf cfg env .sumOfWeights).bind fun w =>
      s.bind fun s => wpsqStep 5 5 (fun n0 W => .val (wpsqQuantileDes (1 / 2) n0 W)) n w s (a.x, a.w))
  | .weightedExtendedPSquare, some (_, .wpsq s) =>
    .wpsq (if n = 0 then .ub else (statOf cfg env .sumOfWeights).bind fun w =>
      s.bind fun s => wpsqStep (2 * cfg.probs.length + 3) (2 * cfg.probs.length + 3) (wepsqDes cfg.probs) n w s
        (a.x, a.w))
  | .weightedPSquareCumul, some (_, .wcumul s) =>
    .wcumul (if n = 0 then .ub else (statOf cfg env .sumOfWeights).bind fun w =>
      s.bind fun s => (wpsqStep (cfg.cells + 1) cfg.cells (fun n0 W => .val (wpsqCumulDes cfg.cells n0 W)) n w s.m
        (a.x, a.w)).bind fun m => .val { s with m := m, dirty := true })
  -- median.hpp:83-86, 153-156, weighted_median.hpp:81-84, 150-153
  | .withDensityMedian, some (_, .densMedian s _ m) | .withDensityWeightedMedian, some (_, .densMedian s _ m) =>
    .densMedian s true m
  | .withCumulMedian, some (_, .cumulMedian _ m) | .withCumulWeightedMedian, some (_, .cumulMedian _ m) =>
    .cumulMedian true m
  -- tail.hpp:190-203; the tail variates have no `operator()` of their own (`accumulator_base.hpp:43-46`)
  | .tail side, some (_, .tail s) => .tail (TailOwn.next cfg.heap side s a.x)
  | .tailVariate _ _, some (_, c) | .tailWeights _, some (_, c) => c
  -- peaks_over_threshold.hpp:145-156, 239-242, weighted_peaks_over_threshold.hpp:75-86, 166-169
  | .peaksOverThreshold side, some (_, .pot s) => .pot (potPush side s a.x)
  | .weightedPeaksOverThreshold side, some (_, .wpot s) => .wpot (wpotPush side s (a.x, a.w))
  | .peaksOverThresholdProb _, some (_, .potProb mu sigma2 tp fit _)
  | .weightedPeaksOverThresholdProb _, some (_, .potProb mu sigma2 tp fit _) => .potProb mu sigma2 tp fit true
  | f, _ => if StdF.elementary f then .stat ((statImpl cfg.irr cfg.lo cfg.hi).upd f (statEnv env) a.toArgs) else .none

/-- What the update of the accumulator of feature `f` makes of the state `c` of the accumulator `t`. -/
def write (cfg : Cfg K) (f : StdF) (env : Env StdF (Cell K)) (a : FArgs K) (t : Tag StdF) (c : Cell K) : Cell K :=
  match f, t, c with
  -- tail.hpp:106-130 (`is_tail_variate_feature`), 226-235
  | .tail side, ⟨.tailVariate v side', false⟩, .variates l =>
    if side' = side then .variates (assignSlot (TailOwn.slot cfg.heap side (tailOf env) a.x) (a.vec v) l)
    else .variates l
  | .tail side, ⟨.tailWeights side', false⟩, .weights l =>
    if side' = side then .weights (assignSlot (TailOwn.slot cfg.heap side (tailOf env) a.x) a.w l) else .weights l
  | _, _, c => c

end Cell

/-- The accumulators of a set constructed without an initial sample. -/
def fullImpl {K : Type} [Field K] [LinearOrder K] [FloorRing K] (cfg : Cfg K) : XImpl StdF (Cell K) (FArgs K) where
  init := Cell.start cfg
  upd f env a := Cell.step cfg env a f (env (StdF.key f))
  assign := Cell.write cfg

end Acc
